# Formal model of peekxc/primate in Lean 4

## Layout

* `lean/Verif/Model/*.lean` models the code, function by function and branch by branch.  Every definition cites the file and lines
  of `/repo` it models and says where it simplifies.
* `lean/Verif/Spec/*.lean` holds small specifications that mention no model definition (sample mean, covariance, orthogonal projector,
  f(A), Krylov space, the kneedle curve, ...).  Notions available in Mathlib (trace, rank, norm, eigenvalues, roots, limits) are used directly.
* `lean/Verif/Lemmas/*.lean` holds proofs about the model.
* `lean/Verif/Props/*.lean` holds the property theorems `Cxx_...` and, beside each, an `example` that meets its hypotheses in a concrete
  non-trivial case.
* `seeded/LOG.jsonl` records the mutation experiments (`tools/mutate.py`), `tools/manifest.py` writes `MANIFEST.json`, `tools/design.py`
  writes the generated part of this file.

Names: a theorem `Cxx_..._partial` proves part of a claim; `Cxx_counterexample` (and the like) proves that the claim as stated in
`properties.jsonl` is false of the code.

## Modelling decisions

* **Exceptions** are values: `Py α = Except PyErr α`.  `PyErr` has the exception classes the code can raise.  Messages of exceptions are not modelled.
* **Numbers.** Finite floating point numbers are real numbers (or elements of an arbitrary field if no order or root is needed).  Infinities and
  NaN are explicit where control flow or results depend on them (`Fl`, `NumArr`, `Option`).  Rounding, overflow and underflow are not
  modelled, except in C106, C107, C114, C116, C143 and C148: there every operation is followed by a rounding to nearest in a binary format with subnormal numbers (`Spec/Float.lean`),
  kernels that add many numbers may do so in any order, and a bound on the data excludes overflow.  C132-C142, C144, C146 and C147 model the Lanczos recurrence and what is done with
  its result with an arbitrary relative error per vector operation (`Model/LanczosFl.lean`, `Model/QuadFl.lean`); `Lemmas/LanczosIeee.lean` shows that rounding
  to nearest gives such errors for the recurrence, `Lemmas/QuadIeee.lean` for the sums and products after it.  The eigenvalue solver is assumed to be backward stable
  (`Spec/QuadFl.lean`), which C147 proves for `tqli`; these assumptions are made for numbers in a range `[L, H]` only, so that they are satisfiable by finite formats.  C149 and C151 have a relative error per operation and no limits of the exponent; C151 assumes a stable `np.linalg.qr` (`QRStable`).
* **Loops** `while not converge(estimator)` take fuel and return `Option (Py _)`; `none` means "not finished yet".  Statements quantify over all fuels,
  and termination claims give a sufficient fuel.
* **Random generators** are arbitrary streams, samplers are arbitrary functions of the stream position.  A theorem about all streams holds for every
  seed.  Expectations are finite averages over all equally likely bit patterns, or over arbitrary finite distributions with `E[v v^T] = I`.
* **Native memory.** Buffers have a length and every read and write is checked; an access outside is the error `PyErr.index` (undefined
  behaviour in the original).  Memory with aliasing is a heap of arrays where sharing matters (C55, C90).
* **Threads** (`Isotropic.fill`) are arbitrary interleavings of atomic steps on array elements.
* **External code** is a parameter with an explicit contract which is a hypothesis of the theorems that need it and is shown to be satisfiable:
  `np.linalg.qr` (`QRKernelOk`), `scipy.linalg.qr_insert` (`QRInsertOk`), `scipy.linalg.eigh_tridiagonal` (`EighOk`, `EigvalshOk`, `TriKernels`), ARPACK's
  `eigsh` (C67), Haar matrices (C60), quantile functions (C06, C11, C12).
* **pybind11** follows the documented overload rules of version 2.x (C82).  **Bokeh** figures are represented by the data handed to glyph methods
  (C88, C89, C95).

## Trusted base

* The kernel of Lean 4.33.0.
* The three axioms `propext`, `Classical.choice` and `Quot.sound` of Lean; the table at the end lists the axioms of every theorem in the manifest.  There are no
  own axioms, no `sorry`, no `native_decide`, no `bv_decide`, no `implemented_by` and no `unsafe` code.
* The reading of the source: that the definitions in `Model/` say what the cited lines do.  The simplifications are stated in their comments.
* The behaviour of Python, NumPy, SciPy, Eigen, pybind11 and Bokeh as described above and in the comments.

## What is modelled and what is not

| file | modelled | not modelled |
|------|----------|--------------|
| `stats.py` | `Mean`, `Covariance` (exact, and with rounding in `Model/StatsFl.lean`), `confidence_interval` (exact, and with rounding in `Model/CritFl.lean`) | |
| `estimators.py` | `MeanEstimator`, `ControlVariableEstimator` (with rounding in `Model/ControlFl.lean`), all criteria and their composition (with rounding in `Model/CritFl.lean` and, for `KneeCriterion`, `Model/KneeFl.lean`; composites in `Model/CritRecFl.lean`), `convergence_criterion`, `EstimatorResult`, the messages | the digits printed for a number |
| `typing.py` | all | |
| `trace.py` | `_chunk`, `hutch` (also on stateful matrix functions; with infinite and NaN values in `Model/HutchSpecial.lean`; with rounding in `Model/HutchFl.lean`, `Model/CritFl.lean`, `Model/KneeLoopFl.lean` and `Model/CritRecFl.lean` and, on matrix functions, `Model/SlqFl.lean` and `Model/SlqCritFl.lean`), `hutchpp` (with rounding in `Model/HutchppFl.lean`), `_xtrace`, `xtrace` | |
| `linalg.py` | `update_trinv`, also with rounding (C149) | |
| `diagonal.py` | `diag` (with rounding in `Model/DiagFl.lean`, with infinite and NaN values in `Model/DiagSpecial.lean`), `xdiag` | |
| `lanczos.py` | `_validate_lanczos`, `lanczos`, `rayleigh_ritz`, `_lanczos_py`, `_orth_vector`, `_lanczos_recurrence` | dtypes other than float32/float64 |
| `include/lanczos.h` | `orth_vector`, `lanczos_recurrence` (columns, flat memory, rounded arithmetic), `param_deg`, `param_ncv`, `param_orth` | commented-out code, prefetch hints |
| `_lanczos.cpp` | pybind11 overloads and argument conversion | the alternative nanobind build |
| `include/eigen_operators.h`, `include/pylinop.h` | `matvec`, `rmatvec`, `matmat`, `set_parameter`, the array overload of `PyLinearOperator::matvec`, `shape`, constructor checks | timing counters, `PyLinearOperator::dtype` |
| `include/linear_operator.h`, `include/omp_support.h` | nothing | C++ concepts and includes only, no executable code |
| `operators.py` | `is_linear_op`, `is_valid_operator`, `MatrixFunction` (also `quad` and `_matvec` with rounding), `matrix_function`, functions with infinite or NaN values (`Model/MatFunSpecial.lean`), `Toeplitz` (with rounding in `Model/ToeplitzFl.lean`), `normalize_unit` (with rounding in `Model/NormalizeFl.lean`) | |
| `integrate.py`, `fttr.py` | `quadrature`, `fttr` (with rounding in `Model/FttrFl.lean`), `spectral_density` inputs | |
| `tridiag.py`, `tqli.py` | all, with a memory model for the copies; `tqli` also with rounding (C147) | compilation by Numba |
| `random.py` | `isotropic`, `Isotropic`, `symmetric`, `haar` (both with rounding in `Model/RandomMatFl.lean`); `rademacher` and `sphere` also with rounding (C148) | the bit generators (arbitrary streams, which C115 justifies for arbitrary state machines; C112, C113, C117–C121 and C125–C131 assume ideal ones, `Spec/Prob.lean`) |
| `special.py` | all (with rounding in `Model/SpecialFl.lean`) | |
| `plotting.py` | `figure_csm`, `figure_sequence`, `figure_error`, `figure_jacobi`: the data drawn | colours, titles, legends |
| `__init__.py` | nothing | version lookup and `get_include` |

## Where the code disagrees with its claims

Each line is proved in Lean by the theorem named in brackets.

* C06: `confidence_interval(sdist="normal")` returns NaN for constant samples (`C06_normal_constant`); with confidence 1 so does `sdist="t"` (`C06_full_confidence_partial`).
* C12: `ConfidenceCriterion` reads the quantile for n+1 degrees of freedom instead of n-1 (`C12_counterexample`).
* C14: `KneeCriterion` divides the samples, not their cumulative sums, by 1..n (`C14_counterexample`).
* C19: `ControlVariableEstimator` raises TypeError on a single first observation (`C19_counterexample`).
* C25: `hutch(full=True)` leaves `result.estimate` at 0.0 and `nit` at 0 (`C25_counterexample`).
* C27: `hutchpp` does not round the sample count to a multiple of 3 and divides by zero for N < 3 (`C27_counterexample`).
* C32: `xtrace` ignores the caller's criterion (`C32_ignored`); C33: it compares a function with "sphere" and so never rescales (`C33_counterexample`).
* C35: `diag` returns the average of the running ratio estimates (`C35_running_mean`, `C35_counterexample`).
* C42, C81: after an early stop the unused part of the tridiagonal matrix is kept, so 0 becomes a Ritz value and the matrix function is evaluated at
  0 (`C42_counterexample`, `C81_counterexample`).
* C47, C73: for `orth >= 3` (the default) `MatrixFunction.quad` depends on earlier calls (`C47_counterexample`, `C73_orth_counterexample`).
* C51: `quadrature(quad="fttr")` ignores `deg` (`C51_fttr_degree_ignored`).
* C53: `tqli` can return the input diagonal, and can divide by zero (`C53_counterexample`, `C53_division_by_zero`).
* C58: a NumPy integer as `size` gives a one-dimensional array (`C58_numpy_int_size`).
* C61: `symmetric(pd=True, ew=...)` ignores `pd` (`C61_counterexample`).
* C62: negative `q` gives the zero function (`C62_negative_q`); C63: `smoothstep` with a == b (`C63_degenerate`); C65: "softsign" is unreachable
  (`C65_softsign_unreachable`).
* C66: `Toeplitz` multiplies with the symmetric part when r != c (`C66_counterexample`).
* C68: `is_linear_op` raises on objects without a proper shape (`C68_linear_raises`); C69: IndexError for a function with 0-d output (`C69_callable`).
* C70: `_chunk` splits arrays into three pieces whatever n is (`C70_array_counterexample`).
* C71: `param_ncv` can give 1 for degree 1 (`C71_...`); C72: N = 0 divides by zero (`C72_zero`).
* C74: `diag` with a confidence criterion raises AttributeError at the third vector (`C74_always_raises`).
* C77, C80: `hutchpp` and `diag` reject callable samplers (`C77_counterexample`, `C80_callable_rejected`).
* C78: the callback of `xtrace` sees an empty result (`C78_callback_unfilled`).
* C82: with mixed element types the native code writes to converted copies and `lanczos` returns zeros (`C82_lost`, `C82_counterexample`).
* C86: the Gram variant of the sparse wrapper is inconsistent and overruns its output (`C86_gram_counterexample`, `C86_gram_overflow`).
* C87: strided results of Python operators are copied as if contiguous, short ones are read out of bounds.
* C88: `figure_error` with a true value raises UnboundLocalError (`C88_counterexample`); C89: markers shift after NaN samples (`C89_counterexample`).
* C90: a vector estimate is a view of the live accumulator (`C90_counterexample`).
* C91: `_lanczos_py` stops when the norm is close to `tol`, not below it (`C91_counterexample`).
* C93: at low degree `MatrixFunction` is neither linear nor self-adjoint (`C93_counterexample`).
* C94: `rayleigh_ritz(deg=1)` returns two values (`C94_counterexample`).
* C97: Rademacher vectors can be dependent, then `xtrace` raises LinAlgError (`C97_rademacher_raises`).
* C98: operators that are not square are not rejected and the native code leaves its arrays (`C98_counterexample`).
* C99: the message of a composite criterion shows neither the estimate nor the number of samples (`C99_counterexample`).
* C100: the residual samples stored by `hutchpp(full=True)` are sums over rows (`C100_counterexample`); with a matrix function the call raises ValueError (`C100_matrix_function`).
* C102: `figure_jacobi` raises KeyError for degrees below 3, which its assertion admits (`C102_counterexample`).
* C99: before the first sample the message of a vector-valued estimator shows a single NaN (`C99_estimate`).
* C111: assigning `MatrixFunction.fun` tries the function on n ones, but `quad` and `matvec` call it on `degree` numbers: functions that accept only n numbers are taken and raise later (`C111_accepted_but_raises`), functions undefined at one are refused although they work on the spectrum (`C111_refused_but_works`).
* C114: the recorded `values` of an estimator are views of the caller's arrays; with a reused buffer the record consists of copies of the last observation (`C114_reused_buffer`).
* C117: for singular matrices `xtrace` raises LinAlgError whatever it draws (`C117_xtrace_singular`), and `xdiag` does so for more vectors than the rank (`C117_xdiag_rank`); with Rademacher vectors `xtrace` raises with probability at least 2⁻ⁿ (`C117_rademacher`).
* C120: `diag` with normal or sphere vectors has no expectation as soon as the row has an off-diagonal entry: the first ratio `v_j / v_i` is a Cauchy variable and stays in the average (`C120_no_expectation`); with Rademacher vectors averaging the successive ratios costs almost a factor two in variance (`C121_factor`).
* C45, C46, C73, C92, C103, C104, C105: the iteration stops at the first residual below sqrt(n)*1e-8, and the tridiagonal matrix handed to the solver then contains that residual followed by zeros or by numbers of earlier calls. So quad and M@x are not exact even at full degree (`C45_counterexample` and following: diag(1, 1+2d) with d <= 1e-8, any deg and orth; `M @ x = (1+d) x` for the identity function), f may be evaluated at points outside the spectral interval, and `hutch` is biased for every generator. C122 shows that the damage is of the size of the tolerance for Lipschitz functions.
- **C125**: `hutch` with its default criterion (`CountCriterion(200) | ConfidenceCriterion(0.95, atol=1, rtol=0)`) is not an unbiased estimator: the decision to
  stop looks at the same samples that are averaged.  For the 3 by 3 matrix with zero diagonal and 100 elsewhere the samples are 600 (probability 1/4) or -200; three
  equal samples have standard error zero and end the run, so that -200 is returned too often: the expected value is -73.875 instead of 0
  (`C125_default_biased`).  What remains true for every capped criterion are Wald's identities for the sum of the errors (`C125_wald`).

- **C130**: `ConfidenceCriterion` takes `t_scores[n]` after `n` samples, which is the quantile with `n+1` degrees of freedom (`df=np.arange(30)+1`), while the
  standard deviation of `n` samples has `n-1`; from 30 samples on it takes the normal quantile.  Both are too small: for normal samples the margin covers the error
  with probability strictly below the stated confidence, for every number of samples (`C130_margin`).
- **C129**: `ConfidenceCriterion(atol=0, rtol=0)` (and `None` for both) never stops with normal or sphere vectors unless the samples are constant (`C129_never`).
- **C131**: the relative error compared with `rtol` is the standard error over the modulus of the mean, without the score of the confidence level (the margin compared
  with `atol` contains it).  So `ConfidenceCriterion(confidence=c, rtol=eps, atol=0)` stops with a relative error of at most eps with a probability that tends to
  `P(|Z| <= 1) < 0.685`, for 0.95 and for 0.999 alike (`C131_rtol`).  With Rademacher vectors neither tolerance is honoured: three equal samples end the run
  (`C131_rademacher`).

- **C132-C135**: no disagreement.  Without re-orthogonalisation the recurrence behaves as in Paige's analysis: the returned coefficients are those of a slightly
  perturbed recurrence even when the vectors in `Q` are far from orthogonal, and the quadrature nodes stay in the range of the spectrum up to rounding errors.

- **C136, C137**: no disagreement.  Without re-orthogonalisation the results of `quad` and `_matvec` still have an error of the order of the best polynomial
  approximation plus rounding errors times powers of the degree.  Early termination at `beta < rtol |A v0|` costs an error proportional to that tolerance; the
  function is then also evaluated at (or near) zero, which has to be in the interval.

- **C138 to C141**: the docstring of `lanczos` says that `orth >= deg` is full re-orthogonalisation, but `_validate_lanczos` cuts `orth` off at `ncv - 2 <= deg - 2`,
  so that the last vector is never projected on the complement of the first one (`C138_public_not_full`).  `MatrixFunction(orth=-1)` uses `orth = deg`, which is enough.
  The threshold `2 eps sqrt(n)` below which `orth_vector` leaves an inner product alone is absolute: it does not scale with the matrix, so for matrices of small norm the
  level of orthogonality `2 otol / beta` deteriorates (the theorem asks for `40 orth S (otol + 600 orth eps S) <= beta^2`).  `quad` does not clear `_Q`: from the
  second column on, with `orth > 2`, vectors of the previous column are projected out (see C73), so C140 is about the first column only.

- **C142**: no disagreement for `orth = 0`.  The arrays `_alpha`, `_beta`, `_Q` are not cleared between samples; when a run terminates early the tridiagonal matrix
  contains a block of an earlier run.  This is harmless for the interval of the nodes (the block is a section of a matrix with its eigenvalues near the spectrum), and the
  coupling is below the tolerance.  With an object that is used for the first time the block is zero, so zero has to be in the domain of the function.

- **C145**: the array overload of `PyLinearOperator::matvec` (pylinop.h:59-63) does not compare the length of its argument with the shape: shorter arrays are read
  beyond their end (`C145_short_input`).  The result is allocated with the shape the object has at the time of the call and filled with the shape it had at construction:
  if the object has shrunk in between memory beyond the result is written, if it has grown the result ends in zeros that are no part of the product
  (`C145_shape_changed`).  For a shape with no rows `&out[0]` is evaluated on an empty vector.

- **C146**: no disagreement.  The tolerance `rtol` is compared with `beta_j` itself, not with a multiple of the norm of the matrix (`stopLevel` is `2 rtol S^(k-1)` plus the
  rounding errors, so it is not invariant under scaling): for matrices of norm below `rtol` every run stops after one step.

- **C147**: no disagreement for runs that converge.  The shift of `tqli` is not the Wilkinson shift (`sign` returns 0, 1 or 2, line 61 divides by `g + sign(r, g)` where `g` is
  already overwritten); that changes how fast the iteration converges, not the accuracy of the result.  Not covered: a row that is given up at `max_iter` (no exception, no warning), passes
  that end with `r = 0` (the test on line 84 looks at a variable that was reused, see C53), and underflow in the rotations.

- **C148**: no disagreement.  Rademacher vectors are exact in floating point arithmetic; sphere vectors have the norm `√n` only up to `(3 n + 10) u √n`, and a column whose
  squares underflow to zero becomes infinite or NaN (C57).
- **C149**: no disagreement.  The left residual of `R_inv` stays small; nothing is claimed about the right residual, and a zero on the diagonal of `R` gives infinite entries (C34).
- **C150**: no disagreement.  The margin of error of control variates is commented out in the code, so nothing is claimed about it; a singular sample covariance of the controls is outside the theorem (C18).
- **C151**: no disagreement.  `np.linalg.qr` is assumed to be stable (`QRStable`: what Householder triangularisation guarantees); with a relative error per operation and no limits of the exponent.
* C152: the rounding error of `Toeplitz` products is relative to the sum of |c| and |r|, not to the result: small entries of the product have no relative accuracy.
* C153: one infinite or NaN quadratic form makes `hutch` with an accuracy criterion run forever (`C153_loop`, `C153_diverges`); with the default criterion the result is NaN after 200 vectors (`C153_hutch`). The streaming mean of `inf` and `1` in two batches is NaN (`C153_counterexample`).
* C154: `diag` with a tolerance criterion runs forever if a row of the matrix has a NaN entry (`C154_diverges`).
* C155: with `fun=np.log` (or `"inv"`, or any function infinite at 0) an early stop of the Lanczos iteration makes `quad` and `@` return NaN, because the unused part of the tridiagonal matrix contributes the node 0 with weight 0 (`C155_log`, `C155_inv`, `C155_sqrt`). For `A = c I` this happens for every vector, so `hutch(MatrixFunction(A, fun=np.log), converge="confidence")` does not return (`C155_hutch`). With `fun="inv"` and a stop at a small nonzero residual the value is finite but wrong: 0 instead of at least 1 (`C155_counterexample`).
* C156: `ControlVariableEstimator` with estimated coefficients is biased for finite samples (`C156_biased`), though it has asymptotically the smallest variance (`C156_estimated`).
<!-- FINDINGS -->

<!-- GENERATED: everything below is written by tools/design.py -->

## Properties

Plan (what is modelled, how it is proved), status and remarks.  The statements are in `properties.jsonl`.

* **C01 Streaming mean equals the sample mean** (proved). Mean.update over update lists; invariant mu = sum/n by induction over the history. Exact arithmetic over any field of characteristic 0; histories of non-empty batches of any sizes; NaN before the first observation.
* **C02 Streaming covariance equals the sample covariance** (proved). Covariance.update with its rank-one and batch corrections; invariant S = sum of centred outer products. Every history, dimension and ddof; infinity when n <= ddof.
* **C03 Mean and covariance do not depend on batching or order** (proved). From C01/C02: both specifications are permutation invariant. Any two histories whose observations are permutations of each other.
* **C04 The covariance is symmetric positive semi-definite** (proved). S is a sum of outer products (C02). Over the reals; the one-dimensional variance vanishes iff all observations are equal.
* **C05 Observations of the wrong width are rejected without side effects** (proved). Array promotion and the shape assertion; case analysis. Rejection iff the widths differ, rejected calls have no effect, promotion of scalars and sequences, and the behaviour on empty batches of both accumulators (ZeroDivisionError or silent NaN).
* **C06 confidence_interval is centred, ordered and nested** (partial). Confidence_interval with the quantile function as parameter; algebra and monotonicity. Proved for sdist='t' and for sdist='normal' on non-constant samples, given monotone symmetric quantile functions; the half width is exactly quantile times standard error (C06_width_partial). False for constant samples with 'normal' (C06_normal_constant: NaN interval), and for constant samples of both distributions at confidence 1 (C06_full_confidence_partial).
* **C07 MeanEstimator bookkeeping** (proved). MeanEstimator; invariant over update lists from C01/C02. All histories of non-empty batches, both covariance modes, both record modes; error cases.
* **C08 Stopping criteria compose as Boolean algebra** (proved). Criteria as syntax trees evaluated to Except Bool; structural. Values, exceptions (no short circuit) and Boolean laws for arbitrary nested criteria and user callables.
* **C09 CountCriterion is exact and monotone** (proved). CountCriterion on reachable states. Exact count on every history; monotone under every successful update.
* **C10 ToleranceCriterion decides by the change of the estimate** (proved). ToleranceCriterion with np.linalg.norm on NumArr; norms identified with Mathlib's. Norm orders None, 2, 1, inf; string orders raise ValueError. Norms are compared with Mathlib's.
* **C11 ConfidenceCriterion accepts only when the CLT margin is small** (proved). ConfidenceCriterion with score tables as parameters; algebra of the sample variance (C02). Scalar observations; arbitrary score tables; also the unsupported cases (dim > 1, no covariance).
* **C12 ConfidenceCriterion uses the Student-t quantile with n-1 degrees of freedom** (partial). As C11; the index into the table is off by two. False of the code: C12_counterexample (df = n+1 is used). Proved instead: exact decision with df = n+1, and that it never stops later than the intended rule.
* **C13 KneeCriterion decision** (proved). KneeCriterion; the curve is compared with an independent kneedle specification. Scalar histories; the decision is characterised by the kneedle curve of values[i]/(i+1).
* **C14 KneeCriterion works on cumulative sample means** (partial). As C13, compared with the curve of cumulative means. False of the code: C14_counterexample. Proved instead: correct when the recorded values are partial sums.
* **C15 convergence_criterion resolution** (proved). Convergence_criterion with ASCII lower-casing and keyword dictionaries; case analysis. All strings (ASCII lower-casing) and keyword dictionaries; the resulting fields are stated for every accepted keyword, including None and norm orders; the result depends on the six known keywords only.
* **C16 restrict_kwargs and setdiff_kwargs partition the keywords** (proved). Restrict_kwargs / setdiff_kwargs on association lists; list induction. All signatures and dictionaries.
* **C17 Control variates with fixed coefficients** (proved). ControlVariableEstimator with fixed alpha; covariance characterisation. All histories, any number of controls.
* **C18 Control variates with estimated coefficients are exact for affine dependence** (proved). ControlVariableEstimator with estimated alpha; normal equations, Matrix inverse. All histories, including ones in which earlier updates raised and were caught.
* **C19 ControlVariableEstimator accepts observations one at a time** (partial). First update of ControlVariableEstimator; computation. False of the code: C19_counterexample (TypeError on a single first observation). Proved instead: first batches of two or more.
* **C20 hutch returns the mean of the sampled quadratic forms** (proved). Hutch loop over an arbitrary stream; loop characterisation "first index at which the criterion holds". All operands, criteria, samplers and both modes; the batch must be non-empty.
* **C21 hutch terminates with a count bound** (proved). As C20; fuel bound. All samplers and all non-raising second criteria.
* **C22 hutch is unbiased for Rademacher vectors** (proved). Finite average over sign patterns; sums of products of signs. Finite average over all sign patterns, and expectation under any isotropic law.
* **C23 hutch is exact on diagonal matrices with Rademacher vectors** (proved). V^T D v = trace for sign vectors. All diagonal matrices and sign streams.
* **C24 hutch does not depend on the batch size** (proved). Re-batching lemma for the consumed prefix of the stream. Built-in samplers, all batch sizes; delta is excluded from the state.
* **C25 hutch result object and callback** (partial). EstimatorResult fields at return and at each callback. False of the code: C25_counterexample (result.estimate stays 0.0). Proved: the rest of the claim.
* **C26 Empty operators have trace zero** (proved). Degenerate branches. hutch, hutchpp and diag on empty operators, all settings; error branches of the arguments come first as in the code.
* **C27 hutchpp sample budget** (partial). Integer arithmetic of the sample count. False of the code: C27_counterexample. Proved: three or more rows are accepted.
* **C28 hutchpp is exact when the sketch captures the range** (proved). QR contract; projector algebra. All matrices, symmetric or not, under the QR contract (satisfiable: exists_isQR).
* **C29 hutchpp is unbiased given the sketch** (proved). Finite expectation of the residual term, linearity. All matrices, sketches and sample counts.
* **C30 XTrace estimates are the leave-one-out Hutch++ estimates** (proved). _xtrace matrix formulas against leave-one-out projectors; rank-one downdate of a projector. All matrices and factors with Q^T Q = 1, A W = Q R, R invertible; plain and sphere-rescaled variants; the projector is unique and exists.
* **C31 xtrace stops and uses at most n test vectors** (proved). Xtrace loop with qr_insert as parameter; loop invariant XData. All operands, batch sizes, samplers and criteria, under the contract QRInsertOk (satisfiable: exists_qrInsertOk). LinAlgError only for linearly dependent images.
* **C32 xtrace honours the caller's convergence criterion** (partial). The criterion is overwritten before use; equality of runs. False of the code: C32_ignored, C32_counterexample. The caller's criterion has no effect at all.
* **C33 xtrace with sphere vectors is exact once n vectors are used** (partial). Evaluation of a 2x2 instance; algebra of the rescaling. False of the code: C33_counterexample (3 instead of 2). Proved instead: the helper with the rescaling enabled is exact.
* **C34 update_trinv maintains the inverse** (proved). Block triangular inverse; induction over insertions. One step, triangularity, any insertion sequence, shape mismatch.
* **C35 diag returns the ratio estimator** (partial). Diag loop; invariant for numerator, denominator and running mean. False of the code as stated: the returned value is the running average of the ratio estimators of the first j vectors, j=1..k (C35_running_mean), and C35_counterexample gives an execution in which it differs from the ratio estimator. The claim holds when the loop stops after one vector (C35_first_partial).
* **C36 diag is exact on diagonal matrices and unbiased with Rademacher vectors** (proved). Sign vectors; finite averages. Exact for diagonal matrices (any vectors without zero entries, and every Rademacher stream); unbiased for every matrix and iteration count.
* **C37 xdiag averages leave-one-out diagonal estimates** (proved). Xdiag; matrix algebra of leave-one-out projectors. np.linalg.qr is a parameter with the contract QtQ=1, Y=QR (satisfiable, exists_qrKernelOk); LinAlgError exactly for a singular R; budget for every m>=1, and the other budgets (NaN or ValueError) in C37_no_budget.
* **C38 The Lanczos recurrence never touches memory outside its buffers** (proved). Buffers with checked accesses; index invariant. lanczos, MatrixFunction.quad and matvec in every reachable state, and the native kernel for any operator; n=0 excluded. Also shows that the kernel overruns a one-column buffer, which no caller passes.
* **C39 Lanczos returns T = Q^T A Q with orthonormal Q** (proved). Refinement of the native recurrence to the mathematical three-term recurrence; orthogonality by induction. Exact arithmetic, symmetric matrices, default (zero) buffers, rtol > 0. C39_steps covers early stops as well.
* **C40 Lanczos coefficients do not depend on orth or buffer size** (proved). As C39: both runs refine the same recurrence. Exact arithmetic, symmetric matrices, default (zero) buffers, rtol > 0.
* **C41 lanczos output formats agree** (proved). Formats computed from the same buffers. Arbitrary operators. Wrong-length v0 is outside the model (vectors have their length in the type).
* **C42 Ritz values lie in the numerical range and equal the spectrum at full degree** (partial). Rayleigh quotients on the Krylov space, characteristic polynomial at full degree. False as stated: after an early stop the rest of the tridiagonal matrix is zero and 0 becomes a Ritz value (C42_counterexample: 2I). Proved: values in the hull of the spectrum and 0, widened by the tolerance, always; in the hull of the spectrum when the iteration does not stop early; the eigenvalues with multiplicities, and eigenvectors, at full degree.
* **C43 Gauss quadrature weights are a probability vector** (proved). Quadrature from an orthogonal diagonalisation of the Jacobi matrix. For an eigensolver satisfying EighOk; degrees 0 and negative are excluded.
* **C44 Degree-k quad is exact for polynomials of degree up to 2k-1** (proved). Moments of the Jacobi matrix equal moments of A (polynomial identity on the Krylov space). Symmetric A; SciPy's eigh_tridiagonal is assumed to return an orthogonal diagonalisation. New objects for every orth, used objects for orth <= 2 (see C47). Excludes runs that stop at a residual that is below the tolerance but not zero.
* **C45 Degree-k matvec is exact for polynomials of degree below k and near-optimal otherwise** (partial). P(A)v = |v| Q p(T) e1 for low degrees, spectral norm bound for the rest. False of the code when the iteration stops at a residual below sqrt(n)*1e-8 that is not zero (C45_counterexample: diag(1, 1+2d), d <= 1e-8, with sign vectors, any deg and orth); proved for all other runs, and C122 bounds the error in that case. Every state and orth; same assumptions as C44.
* **C46 Full-degree quad and matvec are exact for every function** (partial). From C44/C45 by Lagrange interpolation on the spectrum. False of the code when the iteration stops at a residual below sqrt(n)*1e-8 that is not zero (C46_counterexample, C45_counterexample: diag(1, 1+2d), d <= 1e-8, with sign vectors, any deg and orth); proved for all other runs, and C122 bounds the error in that case. quad and matvec; same assumptions as C44.
* **C47 MatrixFunction.quad does not depend on earlier calls** (partial). Reachable states of MatrixFunction with reused buffers; overwritten prefix argument. False of the code for orth >= 3, which includes the default (C47_counterexample: the path with 3 vertices, f = x^2, quad(e3) is 1 on a new object and 0 after quad(e1)). Proved for orth <= 2 and all histories.
* **C48 MatrixFunction matvec does not depend on earlier calls** (proved). As C47 for matvec. All histories of quad and matvec, all orth.
* **C49 quad is homogeneous, columnwise and leaves its input alone** (proved). Scaling lemma for the recurrence; columns. Homogeneity for every odd operator, solver and state, including errors; zero; columns; the caller's array.
* **C50 FTTR weights equal Golub-Welsch weights** (proved). Fttr recurrence equals squared first components of eigenvectors (Christoffel-Darboux). Weights of fttr, and agreement of both methods of quadrature for every integrand. Size one raises (out-of-bounds access).
* **C51 quadrature(quad='fttr', deg) is the degree-deg rule** (partial). As C50 with the wrong length. False for every 0 < deg < n with nonzero off-diagonals (C51_fttr_degree_ignored, C51_counterexample): n nodes are returned and the weights sum to less than one. Proved for deg >= n.
* **C52 quadrature input handling** (proved). Decision table of quadrature arguments. Output arrays are modelled by their lengths; on success they hold the returned rule.
* **C53 tqli preserves the spectrum** (partial). Tqli passes as sequences of Givens rotations; similarity invariant. False as stated: C53_counterexample gives a family of 2x2 inputs (e.g. d=[0,1], e=[0,-1]) on which every pass ends with r = 0, the last writes are skipped and tqli returns the input diagonal, not eigenvalues; C53_division_by_zero gives inputs for which the shift divides by zero (NaN). Proved: a pass ending with nonzero r is an orthogonal similarity tracked by Z; runs of such passes that end with vanishing off-diagonals return eigenpairs; Z is orthogonal and the trace is kept in all cases.
* **C54 tqli terminates** (proved). Fuel bound from the iteration counter. max_iter + 2 turns of the loop suffice for every row (the bound is attained).
* **C55 Tridiagonal solvers leave the caller's arrays alone and agree on conventions** (proved). Heap model of the wrappers; frame argument. Over a memory model with copies; the user's maxiter is not used by the fallback of method='auto'. Empty d is not covered.
* **C56 Rademacher samples are balanced signs** (proved). Counting on the grid k/2M. Balance is proved on every grid k/(2M), k < 2M, so in particular on the generator's 2^53-point grid. C56_isotropic: mean of v v^T over all grid draws is the identity.
* **C57 Sphere samples have norm sqrt(n)** (proved). Column normalisation. Zero columns (NaN in NumPy) are excluded by hypothesis; exact arithmetic.
* **C58 isotropic interface** (proved). Decision table of isotropic. Also records that a NumPy integer size gives a one-dimensional array (C58_numpy_int_size).
* **C59 Isotropic.fill is schedule-independent and covers every column** (proved). Interleaving semantics; commutation of writes to different elements. Interleaving model at the granularity of one array element (reading a column for its norm is one step).
* **C60 symmetric and haar return symmetric matrices with the requested spectrum** (proved). Q diag(ew) Q^T, characteristic polynomial. Q / U from LAPACK and SciPy are arbitrary orthogonal matrices; ew scalar or one-dimensional; haar for n >= 2.
* **C61 symmetric(pd=True) is positive semi-definite** (partial). Branches of symmetric. False as documented: pd is ignored when ew is given (C61_flag_ignored, C61_counterexample). Proved when ew is None.
* **C62 softsign approximates the sign** (proved). Central binomial series of softsign; limit by comparison with the full series. For q >= 0: bounded by one, odd, sign of x, uniform and pointwise limit sign(x). C62_negative_q: negative q gives the constant zero function.
* **C63 smoothstep is a monotone step from 0 to 1** (proved). Polynomial inequalities. Degree 3 as used by the code. For a == b the code divides by zero: C63_degenerate.
* **C64 numrank counts eigenvalues** (proved). Counting eigenvalues through the spectral theorem. numrank: trace of the step function is the number of eigenvalues above the threshold, and the rank for a valid threshold.
* **C65 param_callable resolution** (partial). Decision table of param_callable. False as documented for 'softsign': the branch exists but the name is missing from the list of builtins, so it is rejected (C65_softsign_unreachable). All listed names are covered.
* **C66 Toeplitz multiplication** (partial). DFT over the complex numbers, circulant embedding. False if r differs from c: the product computed is with (T + T^T)/2 (C66_symmetric_part, C66_counterexample). The symmetric case is C66_symmetric_partial. FFT in exact arithmetic.
* **C67 normalize_unit maps the spectrum into the unit interval** (proved). Spectral mapping. The eigenvalue returned by ARPACK is assumed to be of largest magnitude and exact. The argument interval is ignored (C67_interval).
* **C68 Operator validation** (partial). Decision table of is_linear_op and is_valid_operator. False as stated: is_linear_op raises AttributeError / IndexError instead of returning False (C68_linear_raises) and is_valid_operator raises AttributeError for a dtype attribute that is not a NumPy dtype (C68_valid_attribute_error). Acceptance is characterised exactly.
* **C69 MatrixFunction construction** (proved). Decision table of the constructor. A callable returning a 0-d array raises IndexError, not AssertionError (C69_callable).
* **C70 Chunking** (partial). List functions. Iterables and rejection proved; false for arrays (C70_array_counterexample): always three pieces, of non-increasing sizes that differ by at most one, whatever n is (C70_array_partial).
* **C71 Native parameter sanitisation** (proved). Integer arithmetic with C++ division. Machine integers unbounded. These functions are only used in commented-out code; ncv >= 2 holds iff the degree is at least two.
* **C72 _validate_lanczos** (proved). Integer arithmetic of np.clip. For N >= 1; C72_zero covers N = 0 with a tolerance (ZeroDivisionError).
* **C73 Stochastic Lanczos quadrature is unbiased at full degree** (partial). Composition of hutch with the stateful MatrixFunction; from C22, C46, C47. False of the code when the iteration stops at a residual below sqrt(n)*1e-8 that is not zero (C105_counterexample: diag(1, 1+2d), d <= 1e-8, with sign vectors, any deg and orth); proved for all other runs, and C122 bounds the error in that case. C73_dense_partial: hutch on the (stateful) object returns what it returns on the dense f(A), for every sampler and argument; C73_unbiased_partial: expectation over all sign patterns. Full degree, orth <= 2, exact arithmetic, eigensolver contract. For the default orth = 3 see also C73_orth_counterexample.
* **C74 diag and xtrace work with the confidence criterion** (partial). Hutch loop with diag's estimator; AttributeError at n = 3. False of the code: with a confidence criterion every diag run raises after the third vector (C74_always_raises).
* **C75 The Python reference recurrence and the native one agree** (proved). Rotating column indices; refinement to the same recurrence. For q != 0, exact arithmetic, zeroed buffers of the sizes used by lanczos().
* **C76 Stopping criteria on a ControlVariableEstimator** (proved). Criteria on every state of a ControlVariableEstimator. All states.
* **C77 hutchpp accepts a sampler** (partial). Decision table. False of the code: C77_counterexample (a callable pdf is rejected). Proved: the accepted names.
* **C78 xtrace's callback sees the progress of the run** (partial). Value passed to each callback. False of the code: C78_callback_unfilled. The returned result object is filled in.
* **C79 diag terminates under a tolerance criterion** (proved). Bounded ratio estimates give a harmonic bound for delta.
* **C80 diag accepts a sampler** (partial). Decision table. False of the code: every callable is rejected with AssertionError (C80_callable_rejected); named distributions work (C35, C36, C37_call).
* **C81 A matrix function is evaluated only on the spectral interval** (partial). Ritz values (C42) as evaluation points. False after an early stop (C81_counterexample: 2I is evaluated at 0). Proved when all off-diagonals reach the tolerance.
* **C82 lanczos returns what the native recurrence computed** (partial). Overload resolution over element types; heap of output arrays, copies for conversions. False of the code: with mixed element types (or an rtol that is not a Python float, e.g. the int 0) the float32 overload is chosen, converted copies of the output arrays are written, and lanczos returns untouched zeros. Proved: which overload runs for every combination of element types (C82_dispatch), that MatrixFunction always calls a matching one, that results agree with the untyped model when no conversion happens (C82_computed_partial), and that they are lost otherwise (C82_lost, C82_counterexample). Missing: rounding to float32 inside the native code is not modelled.
* **C83 MatrixFunction matvec is homogeneous** (proved). Scaling lemma for the recurrence. Every odd operator, solver, state and orth, including errors.
* **C84 isotropic(out=...) accepts and rejects arrays by type** (proved). Decision table of out arrays over element types and layouts. Contiguity and dtype rules of NumPy's Generator methods are part of the model. Rounding to float32 not modelled.
* **C85 orth_vector removes exactly the components along the visited columns** (proved). Loop over visited columns; projection algebra. Exact arithmetic; eps is a parameter. C85_span holds for every matrix with at least one column; C85_orthogonal assumes pairwise orthogonal columns, as in the Lanczos use.
* **C86 Native matrix wrappers represent their matrix** (partial). Buffer models of the Eigen wrappers. Dense, sparse (gram=false) and affine wrappers proved. False of the code for the unbound gram=true variant: matvec and matmat disagree, and a wide matrix overruns the output (C86_gram_counterexample, C86_gram_overflow).
* **C87 Python operators are called faithfully from native code** (partial). Strided arrays as (block, offset, stride, length). Proved for contiguous results that are long enough. False of the code for strided results (copied as contiguous) and short results (read out of bounds).
* **C88 figure_error draws the error of the running estimate** (partial). Plotting data; undefined local variables as an error value. Proved when no true value is given. With mu the function raises UnboundLocalError for every input (C88_counterexample).
* **C89 figure_sequence draws running means and samples** (partial). Plotting data; NaN samples as none. The line is proved for all samples, the markers for samples without NaN. False of the code with NaN samples (C89_counterexample).
* **C90 An estimate once returned does not change** (partial). Heap with the accumulator's array. Proved for scalar estimates. False of the code for vector means: the estimate is a view of the live state (C90_counterexample).
* **C91 The baseline recurrence _lanczos_py** (partial). Baseline recurrence with np.isclose; refinement up to the stop. The complete behaviour is proved (C91_run_partial), and the claim for tol=0. False of the code for other tolerances: np.isclose(beta, tol) does not stop at a norm below tol, and a zero norm then gives NaN (C91_counterexample).
* **C92 matrix_function applies a matrix function** (partial). Composition of the constructor and matvec; from C45, C46. False of the code when the iteration stops at a residual below sqrt(n)*1e-8 that is not zero (C92_counterexample: diag(1, 1+2d), d <= 1e-8, with sign vectors, any deg and orth); proved for all other runs, and C122 bounds the error in that case. Relative to the contract of the SciPy eigensolver. C92_operator (degrees, result without v) is complete.
* **C93 MatrixFunction is linear and its own adjoint** (partial). From C46/C45; a 3x3 counterexample. Proved when the degree is at least n or f is a polynomial of low degree. False for smaller degrees (C93_counterexample): the object is neither linear nor self-adjoint.
* **C94 rayleigh_ritz returns as many values as asked** (partial). Output shapes of rayleigh_ritz. Proved for deg >= 2. False for deg = 1: two values are returned (C94_counterexample). The argument method is ignored.
* **C95 figure_csm draws the cumulative spectral measure** (proved). Step function data; counting.
* **C96 Variance of the Rademacher trace estimator** (proved). Fourth moments of signs; exact variance, Chebyshev's inequality on the finite space. C96_variance (any square matrix), C96_symmetric, C96_chebyshev. The expectation is over all equally likely bit patterns of the Rademacher draws, as in C22.
* **C97 xtrace is unbiased** (proved). Exchange of one vector in the leave-one-out estimates; finite product distributions. C97_unbiased for independent isotropic vectors with finite distributions whose draws always have linearly independent images. C97_rademacher_raises: for n >= 2 the built-in Rademacher vectors do not have this property, and xtrace raises LinAlgError with positive probability.
* **C98 lanczos stays inside its arrays for operators of every shape** (partial). Flat column-major memory; simulation of the column model. False of the code: operators that are not square are not rejected and the native code leaves its arrays (C98_rectangular, C98_counterexample). Proved: for square operators the flat-memory recurrence agrees with the column model (C98_square).
* **C99 Messages of the convergence criteria report the estimate and the sample count** (partial). Messages as token lists (text, numbers, counts); case analysis over the criteria. Proved for the count, tolerance, confidence and knee criteria. False of the code for composite criteria, whose message shows neither the estimate nor the number of samples (C99_counterexample).
* **C100 hutchpp(full=True) stores the estimate, the number of samples and the sampled quadratic forms** (partial). Result object with explicit samples; shapes of the quadratic forms tracked. The estimate, the iteration count and the sums of the two groups of samples are proved. False of the code: the residual samples are sums over rows, not over vectors (C100_counterexample), and with a matrix function the call raises ValueError (C100_matrix_function).
* **C101 Mean squared error of hutchpp with Rademacher vectors** (proved). Exact fourth-moment computation over sign patterns applied to the deflated matrix. Conditional on the sketch; exact arithmetic; QR routine returns an orthonormal basis.
* **C102 figure_jacobi draws the first Jacobi polynomials** (partial). Plotting data; palette table as a key error. Proved for degrees 3 to 10 and for the rejection above 10; the claim is false of the code for degrees 1 and 2, which the assertion admits (C102_counterexample). The polynomials themselves (scipy) and the palette table (bokeh, smallest size 3) are parameters of the model.
* **C103 Degree-k quad is within twice the best polynomial approximation error** (partial). Exactness (C44) applied to f - p; weights are a probability vector. False of the code when the iteration stops at a residual below sqrt(n)*1e-8 that is not zero (C103_counterexample: diag(1, 1+2d), d <= 1e-8, with sign vectors, any deg and orth); proved for all other runs, and C122 bounds the error in that case. Exact arithmetic; new operator or orth <= 2 (C47).
* **C104 The error of quad has the sign of the 2k-th derivative** (partial). Hermite interpolation at the Ritz values, remainder by iterated Rolle. False of the code when the iteration stops at a residual below sqrt(n)*1e-8 that is not zero (C104_counterexample: diag(1, 1+2d), d <= 1e-8, with sign vectors, any deg and orth); proved for all other runs, and C122 bounds the error in that case. Exact arithmetic; same hypotheses as C103. Corollaries for exp, 1/x and log.
* **C105 Bias of stochastic Lanczos quadrature** (partial). C103 and C104 averaged over all sign patterns. False of the code when the iteration stops at a residual below sqrt(n)*1e-8 that is not zero (C105_counterexample: diag(1, 1+2d), d <= 1e-8, with sign vectors, any deg and orth); proved for all other runs, and C122 bounds the error in that case. Exact arithmetic; orth <= 2; the average is exact, over all sign patterns.
* **C106 Rounding error of the streaming mean** (proved). Floating point format and rounding specified over the reals; error recursion for n*mu, any summation tree. Floating point format with p bits, subnormals, any tie-breaking; any order of summation inside a batch. The bound on the data excludes overflow (Fmt.Fits; binary64_fits shows it for up to 2^45 float64 numbers).
* **C107 Rounding error of the streaming covariance** (proved). Error recursion for the sum of products of deviations; signs by monotonicity of rounding. As C106; the product X_centered.T @ X_centered may be evaluated in any order, with or without fused multiply-add (Fmt.FitsSq, binary64_fitsSq). Symmetry and semi-definiteness in floating point arithmetic are not claimed.
* **C108 Ritz values interlace the eigenvalues, and those of two degrees interlace each other** (proved). Cauchy interlacing by counting: if more Ritz values than eigenvalues lie below t, a dimension count gives a vector in the span of those Ritz vectors orthogonal to those eigenvectors, whose two expansions of the quadratic form contradict each other. The tridiagonal matrix is a compression of A by the orthonormal Lanczos basis (lz_compress), and of a larger tridiagonal matrix by the first columns of the identity (triMat_lead).. Exact arithmetic; the tridiagonal eigensolvers return an orthonormal eigendecomposition (EighOk, EigvalshOk). The condition 'no early stop' is part of the property: with an early stop rayleigh_ritz reports spurious zeros (C42).
* **C109 xdiag is an unbiased estimator of the diagonal** (proved). The estimate of entry k is rewritten as the average over i of the leave-one-out diagonal estimates (Sherman-Morrison form already used in C38); the expectation over the i-th vector with the others fixed is A k k, because the leave-one-out projector does not depend on it.. C109_unbiased (finite isotropic distributions all of whose draws have linearly independent images), C109_dependent_raises (dependent images: LinAlgError, so the condition cannot be dropped), C109_rademacher_raises (the built-in Rademacher sampler has such draws). Exact arithmetic.
* **C110 Exponential tail bound and sample-size rule of hutch** (proved). Hoeffding: convexity of exp and zero mean bound the moment generating function of one sample by exp(s^2 B^2/2); the sum over all bit patterns factors over the samples; Markov's inequality with s = eps/B^2.. Share of equally likely bit patterns, exact arithmetic, count criterion; three choices of the deviation bound (any bound, off-diagonal entries, spectrum) and the sample-size rule.
* **C111 Assigning MatrixFunction.fun** (proved). Arbitrary callables as functions from arrays to arrays; case analysis of the setter; states reached with one function are states reached with another (the function does not influence the work arrays), then C47 and C48.. C111_accept_iff, C111_errors, C111_last_accepted (what assignments do), C111_entrywise, C111_quad_entrywise (link to C45/C47), C111_accepted_but_raises, C111_two_rows, C111_refused_but_works (the check is neither sufficient nor necessary), C111_matvec_switch, C111_quad_switch (orth <= 2), C111_degree. Callables are stateless and return finite numbers.
* **C112 hutch with ideal random number generators: expectation, variance and tail probability** (proved). Infinite product measures; odd functions of a coordinate have mean zero (sign flip preserves the law), exchange of coordinates for the sphere, the fourth moment from the law of X+Y, Isserlis' formula; the bits of uniforms are equally likely, then C22, C96, C110.. C112_normal, C112_sphere, C112_rademacher. The generator is ideal: independent numbers with the documented laws (Spec.IidNormal, Spec.IidUniform, shown to exist). Exact arithmetic, CountCriterion.
* **C113 hutchpp with an ideal random number generator: expectation, mean squared error, Chebyshev bound** (proved). The bits of sketch and residual vectors are a pair of independent equally likely patterns; for every sketch the average over the residual bits is the trace (C29) and the squared error is that of the deflated matrix (C101); Chebyshev.. C113_hutchpp. Ideal uniform generator (Spec.IidUniform), Rademacher vectors, any QR routine with orthonormal output spanning the columns, both modes and full on or off. Exact arithmetic.
* **C114 The record of an estimator holds the observations** (partial). Arrays as cells of a memory the caller may write to, the record as a list of references; induction over the history with the set of arrays passed so far. Count, estimate and last change are proved to depend only on the observations as passed, and the record is proved to be the observations in order as long as no array is overwritten after it was passed. False of the code otherwise: the record holds views of the caller's arrays, so a reused buffer leaves copies of the last observation (C114_reused_buffer, C114_counterexample).
* **C115 Seeds and generators: reproducible calls, consecutive use of a Generator** (proved). Generators as state machines; the state after p draws is an invariant of the loops, the array filled from it is the one read from the stream at position p. Generators as state machines with arbitrary steps (Model/Seed.lean). C115_hutch_stream and C115_diag_stream justify the stream abstraction used by the other models; C115_consumed, C115_generator_continues, C115_hutchpp count the draws. Exact arithmetic; the entropy taken without a seed is a parameter.
* **C116 hutch in floating point arithmetic: rounding error and tail probability** (proved). Products with signs are exact, so matrix products and contractions are rounded sums (C106 lemmas); the error of the streaming mean is added; the tail follows from C112 by inclusion of events. C116_hutch_rounding, C116_tail. Dense arrays, Rademacher vectors, CountCriterion, one rounding for all operations; matrix products, contractions and sums in any order, fused or not (FlKernelsOk, shown to be satisfiable). Binary formats with subnormal numbers; overflow excluded by the bound on the entries.
* **C117 xtrace and xdiag with ideal normal generators: almost sure success and expectation** (proved). Independence of images of normal vectors (a nonzero affine functional of a normal number vanishes with probability zero, block by block); the leave-one-out projector does not depend on the left-out vector, so its expectation is taken first (splicing streams preserves the law); measurability of the projector by a ridge limit. C117_xtrace, C117_xdiag: normal, gaussian and sphere samplers over an ideal normal generator, with the QR routines as parameters under their contracts. C117_xtrace_singular, C117_xdiag_rank, C117_rademacher delimit the hypotheses: singular matrices, ranks below the number of vectors, and Rademacher vectors make the functions raise.
* **C118 hutchpp with ideal normal generators: exactness at low rank, expectation, mean squared error** (proved). For at most rank A sketch vectors the projector of the QR factor is the one on their span, otherwise the residual is zero; concatenation of streams preserves the law, so the residual vectors are integrated first for a fixed sketch. C118_exact, C118_mean: normal, gaussian and sphere samplers; C118_mse: normal and gaussian. The QR routine is any function meeting the contract QROk; no measurability of it is assumed.
* **C119 hutch and hutchpp with sphere vectors: exact mean squared error** (proved). The fourth moments of sphere vectors from invariance under sign changes, exchanges and a rotation by 45 degrees of two coordinates, plus the constant norm; different columns are independent, so the cross terms vanish; Fubini over the sketch for hutchpp. C119_hutch: every square matrix for the formula, symmetric ones for the distance form and the comparison with normal vectors; C119_hutchpp: symmetric matrices. The QR routine is any function meeting QROk.
* **C120 diag is unbiased for isotropic vectors** (partial). Fubini over one normal number: for almost all values of the others the first ratio is a constant plus a non-zero multiple of its reciprocal, which is not integrable, and the later ratios are; Rademacher vectors by summing over sign patterns. False of the code for vectors made of normal numbers: C120_no_expectation shows that with pdf='normal' or 'sphere' no entry whose row has a non-zero off-diagonal entry has an expectation, whatever the number of vectors, since the first ratio (a Cauchy variable) stays in the average. C120_unbiased_partial: Rademacher vectors.
* **C121 Variance and tail probability of diag with Rademacher vectors** (proved). The running mean of ratios is a weighted sum of independent terms; the squared weights add up to (2k - H_k)/k^2 by induction; Hoeffding's lemma for weighted sums. C121_rademacher: mean squared error and Hoeffding bound per entry; C121_factor compares with the plain average.
* **C122 Early stops cost at most the stopping tolerance** (proved). The leading block is a Krylov relation after subtracting a rank-two matrix of Frobenius norm at most sqrt(2) times the tolerance; Lipschitz functions contract the Frobenius norm; an invariant of histories bounds the quadratic forms of the stale tridiagonal matrix, hence the nodes. C122_nodes, C122_quad, C122_matvec, C122_quad_history, C122_matvec_history. Exact arithmetic, eigensolver contract, symmetric A; new objects for every orth, used objects for orth <= 2 (quad) or any orth (matvec). No assumption on how the iteration stops.
* **C123 Stochastic Lanczos quadrature end to end** (proved). Invariant of the sampling loop: the samples are the values of quad on the vectors drawn so far, each within the bound of C122; the triangle inequality on the finite average over sign vectors. Holds whatever early stops happen (contrast the partial C73 and C105). Guards: f Lipschitz between min(lo,0)-2tol and max(hi,0)+2tol; orth normalised to at most 2 kept vectors. The probability space carries an ideal generator of independent uniform numbers.
* **C124 Explicit convergence rates of matrix functions in the degree** (proved). Bernstein polynomials (variance identity) for Lipschitz functions, Taylor and geometric series with remainder for exp, 1/t and log, inserted into C122, C103 and C123. Rates for identity, exp and Lipschitz functions hold whatever early stops happen; those for inv and log assume that the iteration does not stop early (after a stop the function is evaluated at 0, C42). Exact arithmetic; eigensolver contract EighOk.
* **C125 Adaptive stopping of hutch** (proved). The loop is the first time a predicate of the samples seen so far becomes true; sums over all sign patterns with one block resampled (`sum_indep`) give Wald's identities; the bias of the default criterion follows from the first identity and the count of the patterns whose first three samples agree.. Exact arithmetic and an ideal uniform generator; Rademacher vectors drawn one at a time (no full/callback, or batch 1). The scores are only assumed to be at least 1 in the statement about the default criterion.
* **C126 The error of hutchpp decreases with the square of the number of vectors** (proved). Randomised range finder: after rotating the kernel of `B` to the last coordinates, row `ρ` of the sketch has a dual vector orthogonal to the other rows; conditionally on them the mean of the inverse squared gap is the mean of an inverse chi-square with `nb-k+1` degrees of freedom (Laplace transform, `1/(nb-k-1)`); rows beyond `k` are independent and give the Frobenius norm of the tail. Combined with the exact mean squared errors of C118 and C119, and with the truncated spectral decomposition for the second part.. Exact arithmetic; the generator is an ideal source of independent normal numbers and QR is exact, as in C118 and C119. Rademacher sketches are not covered.
* **C127 hutch is consistent and asymptotically normal** (proved). Blocks of independent numbers are independent with the same law (product measures), so the samples are independent with the variances of C112 and C119; strong law of large numbers and central limit theorem of Mathlib.. For the three built-in distributions with ideal generators (independent uniform and normal numbers), exact arithmetic, samples as in hutch without full or callback. The variance of the limit is the variance of one sample, given explicitly for each distribution.
* **C128 Coverage of the confidence intervals** (proved). Student's theorem by rotating the normal vector so that the mean is its first coordinate, quantiles of the ratio by its symmetry; in general Slutsky's theorem with the almost sure limit of the sample variance, and the convergence of Student's quantiles to normal ones.. Exact coverage for normal samples, asymptotic coverage for every law with finite positive variance; quantile functions by their definition (Spec/Quantile.lean). The margin of ConfidenceCriterion is covered for a fixed number of samples, not at the stopping time.
* **C129 Termination of hutch with ConfidenceCriterion** (proved). The standard error tends to zero; if the trace is zero the events of Kolmogorov's 0-1 law show that the error exceeds every multiple of the standard error infinitely often. Ties of quadratic forms of normal numbers have probability zero (polynomials in one coordinate).. Vectors drawn one at a time (batch 1, or neither full nor callback). Termination is almost sure, with no bound on the number of samples. With both tolerances zero the loop does not terminate with normal and sphere vectors.
* **C130 The margins of ConfidenceCriterion are too small for normal samples** (proved). Student's ratio is a scale mixture of normal numbers; the probability of an interval is strictly concave in the squared scale, so Jensen's inequality over leave-one-out averages shows that it increases strictly with the degrees of freedom.. Strict inequality for every number of samples. The cause for fewer than 30 samples is that t_scores[n] has n+1 degrees of freedom instead of n-1, from 30 samples on the use of the normal quantile.
* **C131 Accuracy of hutch with ConfidenceCriterion as the tolerance tends to zero** (proved). Kolmogorov's maximal inequality and the central limit theorem give Anscombe's theorem for a random number of samples; the first passage of the margin below the tolerance is asymptotically (z sigma/eps)^2. In the Rademacher case three equal samples stop the loop at once.. Chow-Robbins type limit for the sequential stopping rule; the score missing in the relative error and early ties with Rademacher vectors are findings.
* **C132 Local rounding errors of the Lanczos recurrence** (proved). The loop is unrolled into a sequence of triples (previous vector, vector, coefficient); one step is analysed with relative errors per vector operation and the norms are carried through by induction. Sums in any order are bounded by induction over the tree of additions.. Model/LanczosFl.lean: the loop of lanczos.h with every vector operation replaced by an arbitrary operation with a relative error; Lemmas/LanczosIeee.lean shows that operations rounded to nearest, in any order and with or without fused operations, have this property. orth > 0 is outside of this property. Overflow, NaN and harmful underflow are excluded by bounds on |A|_F, |v0| and the tolerance (binary64: between 2^-400 and 2^400).
* **C133 Ritz values of the rounded recurrence** (proved). The residual of a Ritz vector is a combination of the last residual vector and the local errors; the eigenbasis of A turns a residual into a distance to the spectrum.. orth <= 0, at least deg columns in Q.
* **C134 Paige's theorem: how orthogonality is lost** (proved). Paige's identity: the strictly upper part R of the Gram matrix satisfies T R - R T = Q^T r e_k^T + H with H of the order of the rounding errors; applied to an eigenvector the left side vanishes.. orth <= 0, at least deg columns in Q.
* **C135 Quadrature nodes stay in the range of the spectrum** (proved). Paige's induction over the leading sections: either the Ritz vector has length at least 1/2 and its Rayleigh quotient is near th, or an eigenvalue of a shorter section is near th.. orth <= 0. The rounding errors of the eigenvalue solver for the tridiagonal matrix are not included.
* **C136 Accuracy of MatrixFunction.quad in rounded arithmetic** (proved). The polynomial is expanded in Chebyshev polynomials of the enlarged interval; each coefficient multiplies a moment error of Paige's near-recurrence; breakdown is a zero-padded matrix, the eigenvalue solver a perturbed one.. orth <= 0 only. Model/QuadFl.lean; the eigenvalue solver is an arbitrary backward stable one, sums and products have a relative error for numbers between L and H (C136_binary64: this holds for rounding to nearest, in any order). The arrays may contain anything left over from earlier calls (RestOk). Rounding errors in evaluating fun are not included.
* **C137 Accuracy of f(A)v in rounded arithmetic** (proved). As C136 with the vectors Q T_j(T) e_1 in place of the moments; products are bounded entry by entry.. orth <= 0 only, ncv = deg. Otherwise as C136.
* **C138 Full re-orthogonalisation keeps the Lanczos vectors orthogonal in rounded arithmetic** (proved). A pass of modified Gram-Schmidt is followed column by column with its rounding errors; the level of orthogonality is carried through the recurrence by a strong induction that uses the symmetry of A; the passes are absorbed into the operations of the plain recurrence.. 1 <= orth, deg <= orth + 1, all vectors kept, Q zero at the beginning, deg * orth * eps <= 1/300. Finite arithmetic only. C138_binary64 gives eps for binary64; C138_public_not_full: lanczos() itself cuts orth off at deg - 2, one projection short.
* **C139 Range of the nodes with full re-orthogonalisation in rounded arithmetic** (proved). Rayleigh quotient of the combination of the computed vectors, with the Gram matrix and the projected matrix of C138.. Same setting as C138.
* **C140 Accuracy of MatrixFunction.quad with full re-orthogonalisation in rounded arithmetic** (proved). The near-recurrence of C138 is an instance of the hypotheses of C136's core.. Same setting as C138: first column after the object is created (Q zero). Eigenvalue solver and sums as in C136.
* **C141 Accuracy of f(A)v with full re-orthogonalisation in rounded arithmetic** (proved). As C140 for C137's core.. Same setting as C138; Q is cleared by the code, so every call is covered. Eigenvalue solver and products as in C137.
* **C142 Accuracy of stochastic Lanczos quadrature in rounded arithmetic** (proved). One column is C136 with the arrays in any state: the part left from earlier calls has its eigenvalues in the same interval, up to the tolerance, which is an invariant of the calls; the samples are averaged with the rounded mean of C114; the tail is C112 for f(A). Rounding to nearest gives the required errors for sums, norms and products in any order.. orth <= 0 only; Rademacher vectors, CountCriterion, float64 results. The hypothesis Steps asks that every run makes at least kappa steps before the tolerance (kappa = 1 is always satisfied, steps_two is a criterion for kappa = 2); the polynomials have degree at most 2 kappa - 2. The eigenvalue solver is an arbitrary backward stable one. Rounding errors in evaluating fun are not included. C142_binary64: the other requirements hold in binary64 for numbers between 2^-400 and 2^400.
* **C143 Accuracy of diag in rounded arithmetic** (proved). The numerator is a rounded sum of rounded products with signs, the denominator an exact integer, and the loop ends after the count; the error of sums in any order bounds the quotient; the tail is C121.. Rademacher vectors, CountCriterion; every product, sum, division rounded to nearest, any order of evaluation in the kernels.
* **C144 Inaccurate function values in the matrix function** (proved). A function computed with an error is another function: C136, C137 and C142 hold for it with the approximation error enlarged, and the difference of f(A) and F(A) is at most the error in norm.. The function values have an absolute error of at most rho on the interval of the nodes; quadrature, function application, and stochastic Lanczos quadrature with its tail bound.
* **C145 Array overload of the matvec of wrapped python operators** (partial). Unfolding the call; the counterexamples are an argument shorter than the shape and an object whose shape changes after construction.. The claim holds for arguments of the right length and shapes that do not change; C145_short_input and C145_shape_changed show what happens otherwise.
* **C146 Early termination of the Lanczos recurrence in rounded arithmetic** (proved). The vectors of the recurrence, scaled with the off-diagonal entries, nearly satisfy the recurrence of the characteristic polynomials of the leading blocks; the errors grow by a factor of three per step. A monic polynomial cannot be small at k+1 separated points (Lagrange interpolation of the leading coefficient).. Without re-orthogonalisation; relative error per vector operation as in C132.
* **C147 tqli is backward stable in rounded arithmetic** (proved). Every rotation of a sweep is compared with the exact rotation of the rounded data (a change of at most 16 entries of the bulge matrix); orthogonal invariance of the Frobenius norm adds up the errors of the sweeps, the negligible off-diagonals are part of the backward error.. Relative error per operation, no limits of the exponent (an underflow inside np.hypot is not covered). Runs in which a row is given up at max_iter or a pass ends with r = 0 (C53) are excluded by the hypothesis RowsConverge.
* **C148 The samplers in rounded arithmetic, Lanczos quadrature with any sampler** (proved). The uniform numbers are members of the format, so that doubling, floor and the affine map are exact; for 'sphere' the errors of the sum of squares, root, division and product are added up per entry; the induction over the passes of C142 is made for any sampler, and f(A) has norm max|f|.. Rounded to nearest in a format with subnormal numbers; the numbers of the generator are given and are members of the format, np.floor and the comparison are exact, the sum of squares is evaluated in any order. The bound for 'sphere' excludes columns whose squared norm underflows or overflows (a zero column gives NaN, C57).
* **C149 update_trinv keeps a small residual in rounded arithmetic** (proved). The error of an inner product in any order by induction on the order; the residual of the new column is the error of the product plus at most two roundings times the sum; old entries are unchanged, so that the bound is an invariant.. Relative error per operation, no limits of the exponent; inner products in any order. The factor R is given (rounding in qr_insert is not modelled).
* **C150 Control variates with estimated coefficients are ordinary least squares** (proved). Normal equations of the centred observations; the sum of squared residuals of any other affine function is larger by the sum of the squares of the difference, which vanishes only for equal coefficients because the sample covariance is nonsingular.. All histories of updates, any number of controls; exact arithmetic. Needs two observations and a nonsingular sample covariance of the controls.
* **C151 hutchpp in rounded arithmetic** (proved). Errors of contraction and sum add up to 4 g a times the sum of the squared norms; the rounded projection is within 6 r g of the exact one; the trace off the span of Q is the sum of the off-span parts of the columns of A, which are combinations of off-span parts of the sketch.. Any distribution, both modes, full or not; operand with or without quad method. The QR factorisation is assumed to be stable (QRStable). No overflow or underflow.
* **C152 Toeplitz products in rounded arithmetic** (proved). Parseval for npFft and npIfft; the symbol of the circulant is bounded by the sum of absolute values of its first column; the four errors (two transforms, product, inverse transform) add up in the Euclidean norm; the invariant of the call history keeps the second half of the work array zero.. What is computed is the product with the symmetric part (C66); the bound is for that product. Accuracy of np.fft is a hypothesis on the kernels, satisfied by the correctly rounded transforms (fft53_rounded).
* **C153 Infinite and NaN observations** (proved). The arithmetic of special values case by case (sum of a list by induction); an invariant of the estimator in terms of the observations seen; every comparison of a criterion has a NaN or +inf on the left; simulation between the two models for finite values.. Special values follow IEEE 754, finite arithmetic is exact (no rounding, no overflow). C153_counterexample: for infinite observations the estimate depends on the batching, so C01 and C03 do not extend to them. Custom criteria and negations are not covered by C153_criteria.
* **C154 diag with infinite and NaN values** (proved). A coordinate of the vector estimator is a scalar estimator of C153; ratios per coordinate; the norm of a vector with an entry that is not finite is +inf or NaN.. Special values follow IEEE 754, finite arithmetic is exact. Vectors with zero entries come from user-defined samplers only (Rademacher vectors have none, normal and sphere vectors almost surely none). C154_agree: for finite values and every criterion this model of diag returns what the model without special values returns.
* **C155 Functions that are not finite at zero or below** (proved). The tridiagonal matrix of a new object is zero after the stop: its form at the first unused unit vector vanishes, so either an eigenvalue is negative or the coupling is zero; eigenvectors for the eigenvalue zero live on the unused part because the Ritz form is positive definite, so their weight is zero, and infinity times zero is NaN.. C155_log, C155_inv, C155_sqrt (new objects), C155_scalar (every history and every orth, A = c I), C155_hutch, C155_finite, C155_inv_wrong. Exact arithmetic with IEEE special values, eigensolver contract. C155_counterexample: for fun="inv" an early stop at a small residual gives 0 instead of a value of at least 1. In rounded arithmetic the eigenvalue next to zero carries an error of the size of the unit roundoff, which is not modelled here.
* **C156 Control variates with independent observations** (proved). Sample covariances by polarisation from sample variances and the strong law; continuity of the matrix inverse for the coefficients; the estimate differs from the one with the best fixed coefficients by a product of a vanishing factor and one bounded in mean, so the central limit theorem carries over (Slutsky). The bias example is interpolation through two points.. C156_fixed, C156_best, C156_estimated, and C156_biased (finite samples with estimated coefficients are biased). Exact arithmetic; the observations are independent with one law, finite second moments and controls with the stated means; batches arbitrary and may depend on the data.
* **C157 Mean squared errors of xtrace and xdiag with normal or sphere vectors** (proved). Given the other vectors a leave-one-out value is a quadratic form in one vector; its variance is at most twice the squared norm of the residual; the other vectors are a normal sketch (up to scaling), so the range finder bound of C126 applies; Jensen for the average.. C157_xtrace (n >= 4, nonsingular matrices, for which C117 shows that xtrace returns) and C157_xdiag (at most rank A vectors). Exact arithmetic, ideal generator of independent normal numbers, QR routines as parameters under their contracts. The bounds average the squared errors of the single leave-one-out values; the gain from averaging them is not used.
* **C158 Stopping criteria and confidence intervals in rounded arithmetic** (proved). Invariant of the rounded covariance (C107) gives the error of the squared standard error; square roots are monotone up to one rounding; each comparison is decided by the exact value or the exact value is near the threshold; induction over the criterion and over the calls of hutch.. Rounding to nearest, no overflow (bounds on the sizes are hypotheses); kernels in any summation order; quantile given as a number of the format. KneeCriterion is not covered.
* **C159 The functions of special.py in rounded arithmetic** (proved). Quotient, clipping (cases inside and far outside the ramp) and cubic each with their rounding errors; a cubic with slope at most 3/2; summands of softsign with the distance of powers of numbers in the unit interval; a sum with at most one nonzero summand is exact in every order.. Rounding to nearest without overflow; the accuracy of pow, exp and log of the C library is a hypothesis (two units of roundoff for pow, a relative error eps for exp and log); sums in any order.
* **C160 Random matrices with a given spectrum in rounded arithmetic** (proved). Inner products with a single nonzero summand and then with n summands, errors of both products added entry by entry; Frobenius norm and the residual bound for eigenvalues in both directions; for haar, rounding on the grid of subnormal numbers is determined.. Rounding to nearest without overflow, products of matrices in any order of summation, with or without fused multiply-add. The accuracy of the orthogonal factor (LAPACK, SciPy) is a hypothesis: each entry within delta <= 1/8 of an exactly orthogonal matrix.
* **C161 normalize_unit with an inexact eigenvalue and rounding** (proved). Eigenvalues 1/2 + lam/(2 alpha) and equivalences for the two intervals; error of each operation, Cauchy-Schwarz and Rayleigh quotients between the extreme eigenvalues.. The number returned by ARPACK is arbitrary in C161_inexact; with rounding its inverse is assumed to be in the normal range and nothing to overflow. The accuracy of the product with A is a parameter.
* **C162 KneeCriterion in rounded arithmetic** (proved). Error of the rounded cumulative variation by induction, its monotonicity, then quotient and line; extrema of the computed curve are its ends; the subtraction of the threshold keeps its sign, or is absorbed because numbers above 1/4 are spaced by u/2.. Values are finite. The curve is assumed to have a range of at least five times the error bound of its points (or none, C162_flat) and S/(N-2) not to overflow; curves in between are not covered.
* **C163 fttr in rounded arithmetic** (proved). Errors of quotient, products and sum in one step; a rounded sum of nonnegative numbers is at least each of them, so the first square bounds the weight; relative errors of the sum of squares, its reciprocal and the two scalings.. Assumes no overflow (FttrNode), the sum of the magnitudes of the nodes well inside the range (FttrScale) and no fused operations; the order of np.sum is arbitrary. The computed polynomial values are compared with their recurrence, not with the exact polynomials, whose forward error is not bounded.
* **C164 Control variates in rounded arithmetic** (proved). Errors of mean and covariance from C106 and C107; the rounded differences and dot product add relative errors; for one control the quotient of covariances is perturbed by the two covariance errors.. Rounded arithmetic; np.dot and the kernels of Covariance.update add in any order, np.linalg.solve is arbitrary. A quotient with computed variance zero is taken as NaN; the theorem on the estimated coefficient excludes it.
* **C165 hutch with KneeCriterion in rounded arithmetic** (proved). Induction over the passes with the invariant of C106 and the recorded samples; the decisions of C162 applied to the samples of each pass.. Rounded arithmetic for a dense array; KneeCriterion(S) and CountCriterion(c) | KneeCriterion(S). C165_knee assumes the conditions of C162 for the samples of each pass.
* **C166 All criteria and their composites in rounded arithmetic** (proved). Induction over the criterion, with C158 for the criteria there and C162 for the knee criterion; induction over the passes with the invariant of C158 and the recorded samples.. Rounded arithmetic for a dense array. The answer of KneeCriterion is tied to the exact curve under the conditions of C162 (curve not flat beside the errors, 4u <= S/(n-2) <= 1) or for a flat curve; otherwise only that it answers without exception.
* **C167 hutch on a MatrixFunction with any criterion in rounded arithmetic** (proved). The arrays left by each column satisfy the invariant of C142, so the batches form a sequence fixed in advance; induction over the passes as in C166.. orth = 0 (no re-orthogonalisation), under the hypotheses of C148 on matrix, function and sampler; the decisions are those of C166.

## Axioms

560 theorems depend on: Classical.choice, Quot.sound, propext.

`C01_mean`, `C01_cov_mean`, `C02_covariance`, `C02_infinite`, `C03_batching_and_order`, `C04_covariance_psd`, `C04_variance`, `C06_centred_nested_partial`, `C06_equivariant_partial`, `C06_normal_constant`, `C06_full_confidence_partial`, `C06_rejects`, `C06_width_partial`, `C07_bookkeeping`, `C07_initial`, `C07_errors`, `C08_values`, `C08_raises`, `C08_laws`, `C09_count_exact`, `C09_count_monotone`, `C10_decision`, `C10_initial`, `C10_never`, `C10_first_update`, `C10_string_ord`, `C11_few`, `C11_decision`, `C11_unsupported`, `C11_constructor`, `C12_counterexample`, `C12_degrees_partial`, `C12_never_later_partial`, `C13_false`, `C13_decision`, `C13_linear`, `C14_counterexample`, `C14_partial_sums_partial`, `C15_passthrough`, `C15_invalid`, `C15_count`, `C15_count_float`, `C15_unexpected`, `C15_tolerance`, `C15_confidence`, `C15_knee`, `C15_ignores_others`, `C16_partition`, `C16_keys`, `C17_fixed_alpha`, `C17_length_mismatch`, `C18_affine_exact`, `C19_counterexample`, `C19_two_or_more_partial`, `C20_first_stop`, `C20_deterministic`, `C20_quadForm`, `C21_scalar`, `C21_full`, `C21_default`, `C22_unbiased`, `C22_isotropic`, `C23_exact`, `C23_confidence`, `C24_columns`, `C24_state`, `C24_hutch`, `C25_estimate_field`, `C25_counterexample`, `C25_result_partial`, `C26_diag`, `C26_hutch`, `C26_hutchpp`, `C27_counterexample`, `C27_divisible_iff`, `C27_accepts_partial`, `C28_exact`, `C28_exact_full`, `C29_modes`, `C29_unbiased`, `C30_leave_one_out`, `C30_leave_one_out_sphere`, `C30_projector_exists`, `C31_terminates`, `C31_estimate`, `C31_raises_iff`, `C31_batch`, `C32_ignored`, `C32_counterexample`, `C33_exact_partial`, `C33_counterexample`, `C34_inverse`, `C34_triangular`, `C34_shape`, `C34_sequence`, `C35_running_mean`, `C35_first_partial`, `C35_counterexample`, `C36_exact`, `C36_exact_rademacher`, `C36_unbiased`, `C37_leave_one_out`, `C37_singular`, `C37_budget`, `C37_call`, `C37_no_budget`, `C38_native_in_bounds`, `C38_lanczos_ok_iff`, `C38_one_column_overruns`, `C38_matrix_function_in_bounds`, `C39_steps`, `C39_lanczos_tridiagonal`, `C40_orth_independent`, `C41_formats`, `C41_nonpositive_degree`, `C41_caller_arrays`, `C42_ritz_bounds_partial`, `C42_ritz_full_partial`, `C42_counterexample`, `C43_golub_welsch`, `C44_quad_exact_poly`, `C45_counterexample`, `C45_matvec_near_optimal_partial`, `C46_counterexample`, `C46_quad_exact_partial`, `C46_matvec_exact_partial`, `C47_quad_history_partial`, `C47_counterexample`, `C48_matvec_history`, `C49_quad_homogeneous`, `C49_quad_zero`, `C49_quad_columns`, `C49_quad_caller_array`, `C50_fttr_weights`, `C50_fttr_agrees`, `C50_fttr_size_one`, `C51_fttr_degree_ignored`, `C51_fttr_full_degree_partial`, `C51_counterexample`, `C52_rejects`, `C52_unknown_method`, `C52_padding`, `C52_degree_clipped`, `C52_outputs`, `C52_degree_zero`, `C52_negative_degree`, `C52_rejects_int`, `C53_sweep_partial`, `C53_orthogonal_trace`, `C53_eigenpairs_partial`, `C53_counterexample`, `C53_division_by_zero`, `C54_tqli_terminates`, `C54_solvers_terminate`, `C55_rejects`, `C55_lengths`, `C55_auto`, `C55_empty`, `C55_caller_arrays`, `C55_memory_results`, `C56_signs`, `C56_balanced`, `C56_isotropic`, `C57_sphere`, `C58_names`, `C58_int_size`, `C58_numpy_int_size`, `C58_tuple`, `C58_columns`, `C59_partition`, `C59_fill`, `C59_rejects`, `C60_symmetric`, `C60_symmetric_default`, `C60_symmetric_rejects`, `C60_haar`, `C60_symmetric_draws`, `C61_flag_ignored`, `C61_counterexample`, `C61_default_partial`, `C62_bounds`, `C62_sign`, `C62_monotone_q`, `C62_uniform`, `C62_limit`, `C62_negative_q`, `C63_step`, `C63_degree`, `C63_degenerate`, `C64_count`, `C64_rank`, `C65_builtins`, `C65_other`, `C65_softsign_unreachable`, `C66_symmetric_part`, `C66_symmetric_partial`, `C66_rejects`, `C66_counterexample`, `C67_spectrum`, `C67_interval`, `C67_errors`, `C68_linear_true`, `C68_linear_raises`, `C68_valid_iff`, `C68_valid_rejects`, `C68_valid_attribute_error`, `C69_degree_rejected`, `C69_attributes`, `C69_callable`, `C69_function`, `C69_init`, `C70_iter`, `C70_array_counterexample`, `C71_mod`, `C71_params`, `C72_raises`, `C72_values`, `C72_zero`, `C73_dense_partial`, `C73_unbiased_partial`, `C73_orth_counterexample`, `C74_always_raises`, `C75_agree`, `C75_same_output`, `C76_criteria`, `C77_counterexample`, `C77_names_partial`, `C78_callback_unfilled`, `C78_result_partial`, `C79_terminates`, `C80_callable_rejected`, `C81_nodes_in_hull_partial`, `C81_counterexample`, `C82_computed_partial`, `C82_lost`, `C82_counterexample`, `C83_matvec_homogeneous`, `C84_out_fortran`, `C84_out_float32`, `C84_out_rejects`, `C85_span`, `C85_orthogonal`, `C86_dense`, `C86_sparse_partial`, `C86_affine`, `C86_gram_counterexample`, `C86_gram_overflow`, `C86_short_buffers`, `C87_constructor`, `C87_exact_partial`, `C87_strided_counterexample`, `C87_short`, `C88_counterexample`, `C88_not_recorded`, `C88_bound_partial`, `C89_line`, `C89_markers_partial`, `C89_counterexample`, `C89_not_recorded`, `C89_estimator`, `C90_refines`, `C90_scalar_partial`, `C90_tracks`, `C90_counterexample`, `C91_asserts`, `C91_run_partial`, `C91_tol_zero_partial`, `C91_counterexample`, `C91_zero_vector`, `C92_counterexample`, `C92_operator`, `C92_column_partial`, `C92_identity_partial`, `C93_exact_partial`, `C93_counterexample`, `C94_count_partial`, `C94_counterexample`, `C94_nonpositive`, `C95_csm`, `C95_empty`, `C96_variance`, `C96_symmetric`, `C96_chebyshev`, `C97_unbiased`, `C97_rademacher_raises`, `C98_square`, `C98_rectangular`, `C98_counterexample`, `C99_summary`, `C99_commas`, `C99_estimate`, `C99_reports_partial`, `C99_confidence`, `C99_entry`, `C99_tolerance`, `C99_count_knee`, `C99_text`, `C99_confidence_raises`, `C99_counterexample`, `C99_hutch_message`, `C99_control_variates`, `C100_samples_partial`, `C100_full_mode_partial`, `C100_counterexample`, `C100_matrix_function`, `C100_shape`, `C101_variance`, `C101_frobenius`, `C101_bound`, `C102_jacobi_partial`, `C102_rejects`, `C102_counterexample`, `C103_counterexample`, `C103_quad_near_optimal_partial`, `C104_counterexample`, `C104_one_sided_partial`, `C104_exp_partial`, `C104_inverse_partial`, `C104_log_partial`, `C105_counterexample`, `C105_slq_bias_partial`, `C106_mean_rounding`, `C106_constant_exact`, `C107_covariance_rounding`, `C107_sum_of_squares_monotone`, `C108_ritz_interlace`, `C108_degrees_interlace`, `C109_unbiased`, `C109_dependent_raises`, `C109_rademacher_raises`, `C110_tail`, `C110_tail_entries`, `C110_tail_spectrum`, `C110_sample_size`, `C111_accept_iff`, `C111_errors`, `C111_last_accepted`, `C111_entrywise`, `C111_quad_entrywise`, `C111_accepted_but_raises`, `C111_two_rows`, `C111_refused_but_works`, `C111_constants`, `C111_matvec_switch`, `C111_quad_switch`, `C111_degree`, `C112_normal`, `C112_sphere`, `C112_rademacher`, `C113_hutchpp`, `C114_numbers`, `C114_record_partial`, `C114_no_record`, `C114_reused_buffer`, `C114_counterexample`, `C115_hutch_stream`, `C115_callable`, `C115_consumed`, `C115_int_seed`, `C115_negative_seed`, `C115_generator_continues`, `C115_hutchpp`, `C115_diag_stream`, `C116_hutch_rounding`, `C116_tail`, `C117_xtrace`, `C117_xtrace_singular`, `C117_xdiag`, `C117_xdiag_rank`, `C117_rademacher`, `C118_exact`, `C118_mean`, `C118_mse`, `C119_hutch`, `C119_hutchpp`, `C120_no_expectation`, `C120_unbiased_partial`, `C121_rademacher`, `C121_factor`, `C122_nodes`, `C122_quad`, `C122_matvec`, `C122_quad_history`, `C122_matvec_history`, `C123_any_criterion`, `C123_count`, `C123_rademacher`, `C124_lipschitz_quad`, `C124_lipschitz_matvec`, `C124_exp_quad`, `C124_exp_matvec`, `C124_identity_quad`, `C124_inverse_quad`, `C124_log_quad`, `C124_trace_exp`, `C125_wald`, `C125_bias`, `C125_default_biased`, `C126_rate`, `C127_hutch`, `C128_interval`, `C128_normal`, `C128_margin`, `C129_terminates`, `C129_never`, `C130_margin`, `C130_interval`, `C131_atol`, `C131_samples`, `C131_rtol`, `C131_rademacher`, `C132_local_errors`, `C132_binary64`, `C133_ritz_near`, `C134_paige`, `C135_nodes_in_range`, `C136_quad_accuracy`, `C136_binary64`, `C137_matvec_accuracy`, `C138_full_orthogonality`, `C138_public_not_full`, `C138_binary64`, `C139_nodes_full`, `C140_quad_full`, `C141_matvec_full`, `C142_quad_columns`, `C142_slq_rounding`, `C142_empty`, `C142_tail`, `C142_binary64`, `C143_diag_rounding`, `C143_tail`, `C144_quadForm`, `C144_apply`, `C144_slq`, `C144_tail`, `C144_quad`, `C144_matvec`, `C145_array_partial`, `C145_short_input`, `C145_shape_changed`, `C146_early_stop`, `C146_steps`, `C146_spread`, `C147_backward_stable`, `C147_values`, `C147_solver`, `C147_values_only`, `C147_exact`, `C148_rademacher_exact`, `C148_rademacher_pdf`, `C148_names`, `C148_sphere`, `C148_sphere_norm`, `C148_sphere_binary64`, `C148_slq_sphere`, `C148_slq_sampler`, `C149_update`, `C149_inverse`, `C149_forward`, `C149_exact`, `C150_least_squares`, `C150_smallest_variance`, `C151_core`, `C151_low_rank`, `C151_full_rank`, `C151_hutchpp`, `C151_errors`, `C152_matvec`, `C152_symmetric`, `C152_rejects`, `C153_estimate`, `C153_finite`, `C153_criteria`, `C153_loop`, `C153_diverges`, `C153_count`, `C153_matrix`, `C153_hutch`, `C153_counterexample`, `C154_finite`, `C154_zero`, `C154_not_finite`, `C154_diverges`, `C154_matrix`, `C154_agree`, `C155_log`, `C155_inv`, `C155_sqrt`, `C155_finite`, `C155_state`, `C155_scalar`, `C155_hutch`, `C155_inv_wrong`, `C155_counterexample`, `C156_fixed`, `C156_best`, `C156_estimated`, `C156_biased`, `C157_xtrace`, `C157_xdiag`, `C158_criterion`, `C158_hutch`, `C158_count_bound`, `C158_rademacher`, `C158_interval`, `C159_smoothstep`, `C159_plateaus`, `C159_softsign`, `C159_negative_q`, `C159_errors`, `C159_exact`, `C159_keywords`, `C159_sqrt_inv`, `C159_exp_log`, `C159_matrix`, `C160_exactly_symmetric`, `C160_errors`, `C160_accuracy`, `C160_spectrum`, `C160_symmetric`, `C160_default`, `C160_draws`, `C160_haar_default`, `C160_haar_not_symmetric`, `C161_inexact`, `C161_entry`, `C161_rayleigh`, `C161_errors`, `C162_sound`, `C162_complete`, `C162_absorbed`, `C162_flat`, `C162_call`, `C163_recurrence`, `C163_bounds`, `C163_weights`, `C163_errors`, `C163_degenerate`, `C164_fixed`, `C164_fixed_ok`, `C164_first_observation`, `C164_early`, `C164_any`, `C164_system`, `C164_estimated`, `C164_constant`, `C165_hutch`, `C165_knee`, `C165_no_record`, `C166_criterion`, `C166_hutch`, `C166_count_bound`, `C166_rademacher`, `C166_not_count`, `C166_unrecorded`, `C166_errors`, `C167_slq`, `C167_count_bound`, `C167_errors`

7 theorems depend on: Quot.sound, propext.

`C01_initial`, `C05_rejected_iff`, `C05_rejected_no_effect`, `C05_empty_batch`, `C05_empty_batch_cov`, `C70_reject`, `C70_array_partial`

3 theorems depend on: propext.

`C05_promotion`, `C82_dispatch`, `C82_matrix_function`
