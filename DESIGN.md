# Formal model of tspooner/lfa — design

## What is modelled

The crate's whole compiled source (`/repo/src`, minus tests) is re-expressed as total Lean 4
functions, file by file (every definition cites file and lines):

| Lean module | Rust source |
|---|---|
| `Verif/Model/Scalar.lean` | the `f64` operations the crate uses, as a class of operations *without laws* |
| `Verif/Model/Prelude.lean` | `src/error.rs`, panics, `ndarray` 1-d primitives, `HashMap<usize, V>` |
| `Verif/Model/Features.lean` | `src/features.rs` |
| `Verif/Model/Memory.lean` | the `unsafe` blocks of `src/features.rs` and `src/basis/normalisation.rs`: uninitialised cells, zeroed values, unchecked reads, panicking closures |
| `Verif/Model/Basis.lean` | `src/basis/{mod,constant,stack,closure,normalisation}.rs` |
| `Verif/Model/Poly.lean` | `src/basis/{mod (compute_coefficients, rescale!),polynomial/*,fourier}.rs` |
| `Verif/Model/Kernels.lean` | `src/basis/{kernels/*,kernelised}.rs` |
| `Verif/Model/Ifdd.lean` | `src/basis/ifdd.rs` (not compiled in the crate) |
| `Verif/Model/Grid.lean` | `src/basis/{tile_coding,uniform_grid}.rs` |
| `Verif/Model/Overflow.lean` | every place that computes with `usize` or `isize`, with and without overflow checks (debug and release builds) |
| `Verif/Model/Optim.lean` | `src/optim/*.rs` |
| `Verif/Model/Lfa.lean` | `src/lib.rs` |
| `Verif/Model/Utils.lean` | `src/utils.rs` |
| `Verif/Model/Unwind.lean` | what a panicking `update` leaves behind, for every optimiser |
| `Verif/Model/PartialEq.lean` | the derived `==` of optimisers, bases and kernels (not: `UniformGrid`, closures) |
| `Verif/Model/Serde.lean` | the derived and hand-written serde impls of every type, over an abstract serde data format |
| `Verif/Model/Describe.lean` | `Display` and `description` of errors, `Space::card` |
| `Verif/Model/Layout.lean` | memory layout of `Array1` (buffer, offset, length, stride) and the functions that read the buffer: `stack`, `Vec::from(Features)`, `VectorLFA::update_with` |
| `Verif/Model/Machine.lean` | rounded `f64` arithmetic: rounding, overflow, underflow, unspecified summation orders |
| `Verif/Model/Binary64.lean` | IEEE 754 formats and binary64 with rounding to nearest, ties to even |

The rest of the Lean project:

* `Verif/Spec/*.lean` — the vocabulary of the theorem statements (dense view, well-formed features, multi-indices,
  histories of optimiser calls, closed forms, error units). Short, and independent of the model's helper functions.
* `Verif/Proofs/*.lean` — lemmas.
* `Verif/Tests/Crate.lean` — the crate's own unit tests and doctests with literal inputs, replayed on the model over `Float` during
  the build. Tests of the model's fidelity, not proofs; no theorem depends on them.
* `Verif/Props/*.lean` — the theorems, named after the property (`C05_...`), with counterexamples for refuted
  claims and `example`s that meet the hypotheses.

Conventions:

* **Panics are values.** A Rust function that may panic returns `P α = Except Panic α`; `lfa::Result`
  is `Result α = Except Error α`. A fallible, possibly panicking function returns `P (Result α)`.
* **`&mut`** arguments are returned as new values (`P (Result Unit × O × List K)` for optimiser steps).
* **Scalars.** The model is polymorphic in a scalar type `K` with `[Scalar K]`, a class of bare operations. Four tiers:
  * *every `K`*: no arithmetic law is used, so the theorem holds for IEEE `f64` with rounding, NaN and infinities;
  * *`FP M`*: rounded arithmetic for every `Machine M`. A machine rounds monotonically, symmetrically and idempotently,
    may overflow to infinity, and leaves open the order in which sums, dot products and `powi` are computed.
    `binary64` is such a machine; theorems about `f64` assume `M.rnd = binary64Format.rnd` and nothing about orders.
    `Verif/Proofs/Ieee.lean` proves that this rounding is the one IEEE 754 describes: the result is a number of the format, none is
    closer, ties go to an even significand (`ieee_nearest`), and results are finite exactly below 2^1024 - 2^970 (`ieee_overflow`).
    Assumed of libm: `exp 0 = 1`, `0 <= exp`, `exp x <= 1` for `x <= 0`, `cos 0 = 1`, `|cos| <= 1`, `ln_1p 0 = 0`,
    `ln_1p x >= 0` for `x >= 0`; division, square root and the basic operations are correctly rounded. Zero is
    unsigned; `SFP M Z` adds the sign of zero, and C165 shows that it does not matter;
  * *`ℝ`*: exact arithmetic (`x/0 = 0` as in Mathlib; theorems that would depend on it assume a non-zero divisor or are
    restated over `XReal`);
  * *`XReal`*: reals with `NaN`, `+∞`, `-∞` and IEEE's special-value rules (no rounding, one zero), for degenerate cases.

  `K = Float` makes the model executable.
* **HashMap** is the list of its entries in iteration order (any order); keys are unique (`Nodup`). Results are proved
  independent of that order. A basis is a function, so projecting the same input twice visits the same entries in the
  same order; std's random hasher seeds may differ between calls, which C02 shows to be unobservable except in the rounding
  of sums, and C93 bounds that.
* **State after a panic** (visible only through `catch_unwind`): `Model/Unwind.lean`, used by C146; elsewhere a panic ends the execution.
* **`dot`** of two contiguous operands is one operation per length (`ndarray` unrolls it eightfold; `Model/Unrolled.lean` gives
  that order, C150 uses it, and all other theorems hold for every order). With a column of a matrix that has several columns
  `ndarray` adds from left to right: `Features.dotColumn`. Matrices are in standard layout here, as `LFA::vector` makes them.
* **Weight matrices** are lists of columns; the row count of a matrix without columns is lost.
* **`BuildHasher`** returns the same initial state at every `build_hasher` call.
* **`usize` is `Nat`** outside `Model/Overflow.lean`. C155 shows that this is exact in both build profiles as long as the number
  of features is below `2^64`. `isize` arithmetic (tile coding) is that of a debug build, which panics; C155 relates the release
  build. Lengths and counters of containers in memory cannot overflow.
* **Arrays** are in standard layout (`into_raw_vec`/`as_slice` see logical order).
* External crates: `ndarray` (zip/broadcast/dot/sum rules), `itertools::multi_cartesian_product` (0.10),
  `spaces` (`Dim`, `Equipartition`) enter as small definitions or interface records with stated contracts.

`src/basis/ifdd.rs` is not in the module tree (no `mod ifdd`) and is written against an older version of the crate. It is
modelled on the present `Features` (`Model/Ifdd.lean` says how); C111-C114 are about that reading.

Not modelled: `Debug`/`Clone` derives, concrete serde formats (any faithful one is covered, `Spec/Serde.lean`), BLAS.

## Plan per property

* **C01 Dense view of features** — any K; closed form of the scatter loop over entries with unique keys
* **C02 Hash iteration order is unobservable** — any K for scatter-style operations via that closed form; ℝ for sums via List.Perm
* **C03 dot is the inner product in either representation** — ℝ; sparse fold = Finset sum over the dense view
* **C04 matmul is column-wise dot** — corollary of C03 per column
* **C05 addto / scaled_addto change exactly the right weights** — any K for the frame condition, ℝ for the pointwise value
* **C06 stack is concatenation** — any K; lookup in the offset-inserted map
* **C07 map is pointwise** — any K for exact cases; the 1e-5 threshold makes the full claim false: partial + counterexample + 1e-5 error bound over ℝ
* **C08 merge is pointwise** — any K; false for Dense×Sparse when f(x,0)≠x: partial + counterexample
* **C09 merge, merge_into and merge_inplace agree** — any K; case analysis on the four branches
* **C10 remove clears one feature only** — any K
* **C11 Reading one activation agrees with the dense view** — any K; false for Index on sparse non-unit activations: partial + counterexample
* **C12 Dot product of two features** — ℝ; false for sparse×sparse: partial (unitary) + counterexample
* **C13 Feature equality** — ℝ (lawful ==); HashMap equality
* **C14 Sparse constructors** — any K; foldl insert
* **C15 n_active counts non-zero features** — ℝ; false for sparse vectors with stored zeros: partial + counterexample
* **C16 sum and fold** — ℝ / closures
* **C17 Projections have the advertised dimension** — any K; structural predicate closed under Stack and normalisers
* **C18 ith agrees with project** — any K; false for Fixed::dense (index<1 check): partial + counterexample
* **C19 ith rejects out-of-range indices** — any K
* **C20 ith of normalised bases** — any K; false on inactive sparse indices (panic): partial + counterexample
* **C21 Stack projects both bases in order** — any K
* **C22 with_bias adds an intercept** — ℝ
* **C23 Multi-index enumeration** — combinatorics of the cartesian product
* **C24 Polynomial features are monomials** — ℝ
* **C25 with_zeroth appends a constant feature** — any K; false when exponents are empty (panic): partial + counterexample
* **C26 Chebyshev polynomials** — ℝ; Mathlib's Chebyshev.T
* **C27 Chebyshev serde round trip** — any K; false after with_zeroth; order>11 panics in deserialisation: partial + counterexamples
* **C28 Fourier features** — ℝ
* **C29 Input rescaling** — ℝ and XReal
* **C30 TileCoding activity** — any K, any hasher
* **C31 TileCoding generalises within tiles** — any K, any hasher
* **C32 TileCoding tiles have uniform width** — Int; false around zero (truncating division): partial for non-negative + counterexample
* **C33 UniformGrid activates exactly one in-range cell** — any K, lawful partitions
* **C34 UniformGrid indexing is a bijection** — any K, lawful partitions
* **C35 Kernel grids follow the uniform grid** — any K, lawful partitions
* **C36 Kernels are symmetric and peak at zero distance** — ℝ; false for Matern52 (uses sqrt 3): partial + counterexample
* **C37 Kernels decay with distance** — ℝ; same defect
* **C38 Kernel values use every coordinate** — any K; false for non_ard on slices of length > 1: partial + counterexample
* **C39 Scalar and slice kernels agree** — ℝ
* **C40 Normalisers produce unit norm** — ℝ, XReal for Linf
* **C41 Normalisation is scale invariant and idempotent** — ℝ, XReal for Linf
* **C42 Normalising a null projection** — XReal
* **C43 L0 normalisation divides by the active count** — ℝ
* **C44 Optimiser steps never fail on matching sizes** — any K; induction over histories
* **C45 step is step_scaled by 1** — ℝ
* **C46 SGD history is a weighted sum** — ℝ; induction over histories
* **C47 SGD residual contraction** — ℝ; induction, limits
* **C48 ISGD is the implicit update and always contracts** — ℝ
* **C49 Sparse and dense features train identically** — ℝ; false for Adam and AdaMax weights: partial + counterexample
* **C50 reset restores the initial optimiser** — any K; false for Adam/AdaMax (beta products not reset): partial + counterexample
* **C51 Momentum velocity** — ℝ; induction over histories
* **C52 NAG applies the look-ahead with the scaled gradient** — ℝ; false (look-ahead uses unscaled features): partial + counterexample
* **C53 Adagrad accumulates squares and takes bounded steps** — ℝ; induction
* **C54 Adam bias correction** — ℝ; off by one: partial (exact exponent) + counterexample
* **C55 Adam is numerically safe and takes bounded steps** — ℝ; invariant
* **C56 AdaMax infinity norm** — ℝ; invariant
* **C57 A zero error changes nothing** — ℝ; false for NAG: partial + counterexample
* **C58 Inactive weights are left alone** — any K
* **C59 Fresh approximators evaluate to zero** — ℝ, and every rounded arithmetic (products with zero are zero or NaN, and NaN survives sums in any order)
* **C60 Failed projections have no effect** — any K
* **C61 update_with is update at the current prediction** — any K
* **C62 Vector evaluation is consistent** — any K
* **C63 update_index touches one column** — any K
* **C64 Vector updates treat outputs independently** — any K for stateless optimisers; false for shared state: partial + counterexample
* **C65 Short or long error lists** — any K
* **C66 Optimiser errors in vector updates** — any K, any optimiser
* **C67 Training never panics** — any K; combines C17 and C44
* **C68 SGD update moves the prediction by lr*e*|phi|^2** — ℝ
* **C69 SGD is robust to noise** — ℝ; induction over the session, telescoping distance to v
* **C70 ISGD is robust to noise for every learning rate** — ℝ; induction over the session
* **C71 Realisable targets are learnt from any input sequence** — ℝ; monotone distance, summability
* **C72 SGD predictions are kernel expansions** — ℝ; induction over updates
* **C73 Normalised approximators give bounded predictions** — ℝ
* **C74 A uniform grid approximator is a table** — any K for same/other cell; ℝ for the step
* **C75 Updates are local** — any K; ℝ for Adagrad
* **C76 A one-output vector approximator is a scalar one** — any K; simulation
* **C77 A vector update is a sequence of column updates** — any K, any optimiser; induction over columns
* **C78 Momentum zero is plain SGD** — ℝ; simulation
* **C79 NAG closed form** — ℝ; induction over histories
* **C80 What map does to every input** — any K
* **C81 What merge does to every pair** — any K
* **C82 Representation queries agree** — any K
* **C83 from_space uses the bounds of the space** — any K
* **C84 Default ith** — any K, any basis
* **C85 Index errors identify the access; comparison helpers** — digits of decimal numerals; any K, XReal for NaN
* **C86 Built-in kernels are positive semidefinite** — ℝ; conditionally negative definite distances, Schoenberg-style exponentials, mixtures of Gaussians and limits; counterexamples for Matern52 and planar Cosine
* **C87 Normalised activations stay in [-1, 1] under rounding** — rounded arithmetic FP M for every machine M; the norm dominates every rounded absolute value; binary64 for L2's range and counterexample
* **C88 Rescaled inputs, monomials and Fourier features stay in range under rounding** — rounded arithmetic FP M; closure of [0,1] and [-1,1] under rounded operations, induction on summation trees; binary64 represents integers to 2^53
* **C89 Kernels under rounding** — rounded arithmetic FP M; oddness of rounding for symmetry, monotonicity for bounds
* **C90 Adagrad never overflows** — binary64; the rounded root of the accumulator dominates the gradient, induction on histories
* **C91 Optimisers stay finite in f64** — binary64; one-step invariants (weights finite, state in a binary box closed under rounded averaging), induction on histories
* **C92 An update never moves its own prediction the wrong way** — rounded arithmetic FP M; monotone rounding through every summation tree
* **C93 Accuracy of predictions in f64** — binary64; relative error of one operation, induction on summation trees, underflow separately
* **C94 Accuracy of gradient ascent in f64** — binary64; one-step error, induction on histories
* **C95 Accuracy of L1 normalisation in f64** — binary64; C93's summation bound for the norm and one division per entry
* **C96 Accuracy of polynomial features in f64** — binary64; products stay in [-1,1], so absolute errors add, induction on powTree and on the factors
* **C97 Regret of SGD against any reference weights** — ℝ; induction on the run; the regret bound from the identity and supergradient inequality
* **C98 Regret of Adagrad against any reference weights** — ℝ; potential argument by induction on the run, using the accumulator's closed form
* **C99 Polynomial and Chebyshev predictions determine the weights** — ℝ; independence of one-dimensional sequences lifted to tensor products by induction on the number of inputs; evaluation through the API
* **C100 Fourier and grid predictions determine the weights** — ℝ; restriction to a line with distinct integer frequencies, analyticity, independence of cosines; cell-by-cell for grids
* **C101 Strictly positive definite kernels** — ℝ; independence of Gaussians as characters, kinks for the non-smooth kernels, gamma mixtures for the rational quadratic
* **C102 Kernel approximators interpolate at their centroids** — ℝ; C101 and the Gram matrix; C35 for the distinctness of cell centres
* **C103 Cycling through a finite data set converges (SGD)** — ℝ; each update is an affine contraction off the null space, the composed linear map is a strict contraction on the span of the features (compactness), Banach fixed point
* **C104 Cycling through a finite data set converges (ISGD)** — ℝ; as C103 with the implicit step size
* **C105 Table learning in double precision is monotone and stops** — binary64 rounding; monotonicity of rounding, relative error of each operation, integer multiples of the smallest spacing for termination
* **C106 What the kernel constructors and kernel features compute** — ℝ; closed forms of the distance and the radial profiles
* **C107 Lost weights never recover** — rounded arithmetic; every update adds to or subtracts from the old weight, and such a result is finite only if the weight was; induction over the history
* **C108 One lost weight spreads to all active weights** — rounded arithmetic; a finite sum has finite terms and a finite product finite factors; each optimiser's step is finite only for a finite error
* **C109 Predictions on integers are exact in double precision** — binary64 rounding; multiples of a power of two up to 2^53 units are representable; induction over the summation tree
* **C110 Counting is exact, independent of order, and saturates in double precision** — binary64 rounding; induction over the history with the budget as invariant; round half to even at 2^53
* **C111 What feature discovery adds, and when** — any K and ℝ; one-step lemma for the list of pairs, invariant over the run, comparison with a separate ledger
* **C112 A conjunction is discovered at most once** — ℝ; holds while the credited errors stay below twice the threshold; refuted beyond (the candidate starts afresh after its discovery)
* **C113 Discovery counts the calls in which both features are active** — sparse projections in any arithmetic; refuted for dense ones, where the test on the activation is inverted
* **C114 A discovered feature is active exactly when all its parents are** — ℝ; exact result where every conjunction has an active parent, which is right when it also has an inactive one; refuted otherwise (inverted test)
* **C115 When Momentum converges on a repeated input** — ℝ; second-order recurrence of the errors, real and complex roots treated separately, conserved quadratic form for the converse
* **C116 Where NAG settles on a repeated input** — ℝ; recurrence of the errors with a constant offset caused by the unscaled look-ahead
* **C117 Adagrad converges on a repeated input for every learning rate** — ℝ; either the squared errors are summable or the gains vanish slowly enough to force the limit
* **C118 Squared exponential kernel approximators are universal** — ℝ; the kernels are a non-vanishing factor times exponentials of linear forms, whose span is a point-separating algebra (Stone-Weierstrass)
* **C119 Uniform grids approximate continuous functions** — ℝ; one weight per cell from a representative point, injectivity of the cell index (C34), uniform continuity
* **C120 Training a kernel approximator finds the interpolant** — ℝ; interpolation (C102) combined with cyclic training (C103, C104)
* **C121 In-place operations keep values valid** — memory-level model with uninitialised cells, zeroed slots and destroyed values; case analysis on where the operation panics
* **C122 Merging never reads uninitialised memory** — memory-level model; induction on the filled prefix of the uninitialised array; refinement to the value-level merge
* **C123 The unchecked read of the L0 normaliser stays in bounds** — memory-level model of uget; characterisation of the out-of-bounds reads; impossible for every nesting of the crate's own bases
* **C124 A stack is its parts side by side** — ℝ; entries of the appended weights, simulation of the joint run by the two separate ones
* **C125 Polynomial approximators are universal up to the constant** — ℝ; Stone-Weierstrass for polynomials in several variables, weights from the coefficients (C24, C25)
* **C126 What Fourier approximators over one input represent** — ℝ; Weierstrass after the substitution of the cosine, Chebyshev polynomials span all polynomials; the mean of the features is 0
* **C127 How often a prediction can change sign** — ℝ; along a coordinate the prediction is a polynomial of degree at most p; intermediate value theorem and root counting
* **C128 Mean weights follow the mean targets** — ℝ; each step is affine in the targets, induction over the run with the Bochner integral
* **C129 Error that noisy targets leave on a repeated input** — ℝ; prediction error as a weighted sum of the noise, orthogonality in L2, geometric series
* **C130 What one noisy call adds to the distance from any weights** — ℝ; expand the square, the cross term has mean 0
* **C131 The example of the documentation misses its own assertion** — ℝ; the last call moves the prediction at its input onto the noisy target, then bound a Gaussian density over an interval
* **C132 Mean weights under random sampling** — ℝ; the average obeys a linear recursion with a positive semi-definite matrix, contraction on its range
* **C133 What random sampling leaves in the mean square** — ℝ; second-moment recursion, bounds above and below by geometric series
* **C134 A saved approximator is restored exactly** — any scalar; codecs over an abstract serde data model closed under composition, Reform lists the variations of formats
* **C135 Restoring rejects what constructors cannot build** — any scalar; totality of each codec combinator, inversion for Chebyshev
* **C136 The text of an index error names both numbers** — strings as lists of characters; decimal digits determine the number and contain no parenthesis
* **C137 card is the number of projections** — any scalar for the finite bases, ℝ for polynomials and Fourier; finite sets closed under stacking and normalising
* **C138 Which features tile coding shares between inputs** — any scalar for sharing, ℝ for training; what has been fed to the hasher determines the tiles block by block
* **C139 The memory layout of an array does not matter** — any scalar; arrays as a buffer with offset, length and stride, and the three functions that read the buffer
* **C140 A run can be repeated exactly** — any scalar for the optimisers, with projections in any order at every call; ℝ for predictions; counterexamples in binary64
* **C141 Bootstrapped targets on one repeated transition** — ℝ; the error as a geometric sequence; limits
* **C142 Bootstrapped learning of a table converges** — ℝ; sup-norm contraction per round in which every cell is trained
* **C143 Bootstrapped learning on random transitions of closed trajectories** — ℝ; averages over all N^k draws; positive definiteness of the mean correction on the span of the features
* **C144 How good bootstrapped predictions are** — ℝ; the errors at the limit are orthogonal to everything the basis can represent
* **C145 Following a closed trajectory in order converges** — ℝ; one round is a contraction to first order in the learning rate, with an explicit second-order remainder
* **C146 A panicking update loses nothing** — panics carry the state they leave behind (Model/Unwind.lean), shown to agree with the main model on calls that return; what is left after a panic in each optimiser
* **C147 Training is linear in targets and initial weights** — one description of the four linear optimisers (LinearStep) and induction along three runs; existence of the runs; one call refutes it for the others
* **C148 Predictions see a basis only through inner products** — simulation: the inner product of the weights with any feature vector is a function of the inner products only; one call refutes it for the others
* **C149 The numbering of features does not matter** — simulation along a permutation, one step lemma per optimiser; stacking in the other order is such a renumbering
* **C150 A vector approximator is a family of scalar approximators** — one vector call is the scalar calls side by side when columns are multiplied like vectors (`SameDot`); induction along the run; assembly in the other direction; convergence from C71 by summing over outputs; `Model/Unrolled.lean` has ndarray's order for the f64 part
* **C151 Adam and AdaMax without momentum hover around the target** — one step scales the error by one minus a gain that depends on recent errors; the measure of recent errors is at least a fixed part of the present error and eventually at most the limit superior; band lemmas in Proofs/Band
* **C152 One velocity for all outputs: when Momentum still learns** — errors of all outputs in turn obey one recurrence with delay m; a Lyapunov function for every m, an exact energy identity for m = 2, and waves found by the intermediate value theorem for the optimality
* **C153 One accumulator for all outputs: Adagrad still learns with every rate** — for every optimiser, a run on one input is a sequence of scalar steps in turn; for Adagrad the errors obey a recurrence with delay m whose gain falls with all squared errors: either these are summable, or the gains dominate a harmonic series along each output
* **C154 Momentum learns from any sequence of inputs, within a bound that idle calls lower** — an energy of missing weights and velocity falls at every call by a multiple of the squared error; idle calls compose to heavy ball with momentum^(r+1)
* **C155 Index arithmetic does not overflow, and build profiles agree** — model of every usize and isize operation per profile; induction over entries, coordinates and tilings; refinement of debug by release
* **C156 Error that noisy targets leave with Momentum** — closed form of the weights by the impulse response of the recurrence; squares of the response are summed by a conserved quadratic form
* **C157 Training in double precision follows training in exact arithmetic** — error bound of one call by the rounding lemmas; exact steps are nonexpansive in the Euclidean norm, so the errors add up
* **C158 Which learning rates reach the target** — ℝ; products of factors 1 - a: bounded by exp of minus the sum, and below by Weierstrass' inequality
* **C159 Rates that average the targets** — ℝ; induction over the calls, the strong law of large numbers from Mathlib
* **C160 Which learning rates average noise away** — ℝ; the error is a linear combination of the noise terms; limit of a recurrence with vanishing rates
* **C161 Training with the implicit rate in double precision follows exact training** — FP with the rounding of f64; error of the squared norm, the sum, the product and the quotient; exact implicit steps never move two weight vectors apart
* **C162 Accuracy of L2 normalisation in f64** — FP with the rounding of f64; error of the sum of squares, the root and the quotients
* **C163 Cycling through a data set ends near the best fit** — exact arithmetic; the normal equations of least squares against the balance of the corrections over a cycle, Cauchy-Schwarz, and C103/C104 for the approach to the cycle
* **C164 The mean error while training on random examples** — exact arithmetic; exact change of the mean squared distance from least-squares weights in one draw, summed over the draws
* **C165 The sign of a zero never matters** — rounded arithmetic with both zeros; dropping the sign commutes with every operation except division by -0.0, and with every function of the crate because norms, counts, epsilons and squares are never -0.0; counterexamples for the two exceptions
* **C166 Optimisers and bases that compare equal behave equally** — derived PartialEq modelled field by field; laws lifted through lists, tuples and records; == implies alike in the sense of C165, whose homomorphism theorems give the behaviour
* **C167 How far f64 Chebyshev and Fourier features are from the exact ones** — forward error analysis by a small calculus of (value, bound, error) triples for each hard-coded polynomial; Lipschitz bounds for T_n and cos transport the error of rescaling; the sum by the summation-tree bound
* **C168 Training on features computed in f64 follows training on the exact features** — exact steps do not increase distances; one exact step on two feature vectors differs by a bilinear term bounded by Cauchy-Schwarz; induction over the calls; feature errors from C96 and C167
* **C169 Kernels in double precision are accurate** — Model: Kernels.kernelStationary and sliceDistance over FP M with binary64 rounding. Proof: the distance is computed with a small relative error (KernelErr); a relative error of the argument changes exp(-a), (1+a)exp(-a) and a^2 exp(-a) by a multiple of that error alone (ExpGap); rounding of each operation is then added up
* **C170 Training a kernel approximator in double precision follows the exact training** — Model: KernelBasis.homogeneous, Stationary and RationalQuadratic over FP M and over the reals. Proof: the generic comparison C168_sgd with the bounds of C169 and the maxima of the kernel profiles
* **C171 Accuracy of Adagrad in double precision** — Model: Adagrad over FP M. Proof: one-step bounds in real arithmetic, then induction over the calls; the root of the sum of squares dominates each gradient, so every increment is at most l
* **C172 Accuracy of Momentum and NAG in double precision** — Model: SGDMomentum and NAG over FP M. Proof: a backward error bound for the velocity and a drift lemma for sums of slightly wrong increments, both by induction over the calls
* **C173 Accuracy of Adam and AdaMax in double precision** — Rounded averages are within a relative error of their exact values (induction over the run), so are the products of decay rates and the bias corrections; the rounded step follows by composing the errors of its five operations; the sum of steps by induction. The run over the reals is shown equal to the closed form. C91 supplies finiteness.
* **C174 Accuracy of the L0, L1 and Linf normalisations in double precision** — The divisor of L0 is a natural number up to 2^53 and the one of Linf the magnitude of a stored activation, both exact, so only the division rounds. The L1 norm is bounded by induction over the list (C95) and the quotient by composing the two errors.
* **C175 Training several outputs in double precision follows training in exact arithmetic** — The traces of C157, C161 and C168 are restated for sequences of weights whose predictions are within the error of C93; a column of the vector run is such a sequence in both summation orders. The exact run is a family of scalar runs (C150).
* **C176 Momentum and NAG in double precision follow training in exact arithmetic** — The difference of the two runs is a run of the linear system of C154 with a disturbance; the energy of C154 is the square of a norm (energyLen), which one call does not increase, so the disturbances add up. One call's disturbance is bounded by the error bounds of C172.
* **C177 Training in double precision does not overflow, and an a-priori bound on its distance from exact training** — Sums of at most 2^53 numbers bounded by 2^j are bounded by exact multiples of 2^j, whatever the order; so bounded weights give bounded predictions and finite new weights. The length of the weights grows by at most D plus (8k + 11) 2^-53 of itself per call (call_err, exact_step of C157), so it at most doubles beyond the initial length plus T D, which closes the induction and bounds the sum of the errors of C157.
* **C178 Examples in any order: training on a data set that can be fitted converges whenever every example keeps coming back** — Each update is a rank-one linear contraction of the error. On the unit sphere of the span of the features, the first update in a word that moves a point u shrinks it by a margin that depends on u alone; words before it fix u. So a neighbourhood of u shrinks by a factor common to all words with every letter, and compactness gives one factor r (order_factor). Epochs multiply. Infinite recurrence gives epochs. The random case is the second Borel-Cantelli lemma.
* **C179 Inputs that are NaN or infinite are accepted, and one of them can ruin an approximator for good** — Non-finite numbers are absorbed by sums, products, quotients and powers with positive exponent (add_finite, mul_finite of C107), whatever the other operands, so they reach the argument of cos, which makes NaN of them; truncation to integers maps NaN to 0. A non-finite feature makes the prediction and hence the scale of the step non-finite; C107 makes this permanent.
* **C180 In f64, training on examples that determine the weights stays near the exact fit for ever** — One call is an exact contraction step plus an error of at most a fixed small multiple of the current distance plus a floor (callError_le, implicitError_le of C177). Over L calls the errors add up to at most half the gap 1 - r, so that the distance contracts by (1+r)/2 plus a floor; induction over blocks gives the bound, and simultaneous induction shows that weights and predictions stay within the range of f64. C178 (order_factor) supplies r for all orders at once.
* **C181 In f64, training on inputs that keep exploring stays near exact training for ever, whatever the targets** — Both the exact run and its distance from the rounded run are perturbed contractions: the first with the targets as perturbation, which bounds the exact weights for ever, the second with the rounding errors, which are relative to the weights. The explicit factor compares the directions seen by the inputs with the decrease of the squared length over L calls.
* **C182 What kernels do with NaN and infinite inputs in f64** — NaN and infinity are followed through the distance fold with an invariant on the accumulator, then through each kernel; ruin by training is the theorem of C179, and a projection to zeros makes the dot product and the update exact.
* **C183 What normalisation does with activations that are NaN or infinite** — Invariants of the three folds: NaN absorbs under addition, infinity absorbs non-negative numbers, and f64::max skips NaN.
* **C184 Training several outputs in double precision does not overflow and stays near exact training** — The runs of C177, C180 and C181 are restated for weights whose predictions are dot products with a column of a matrix; the scalar case is a matrix of one column, and the vector case comes from the column-by-column trace of C175.
* **C185 Training from features computed in double precision stays near exact training for ever** — Exact training on the rounded features is put between the two runs. C181 bounds its distance from the f64 run. Replacing features and rates by nearby ones changes a window of calls by at most the sum of the changes of single calls, so the rounded features keep exploring, and the perturbed contraction of C181 bounds the distance of the two exact runs. The shipped bases are instances.
* **C186 Q-learning on a table finds the greatest discounted sums of rewards, and greedy actions become optimal** — The table entries change one at a time. The deviation from the optimal values contracts: an entry that is trained moves towards a target whose deviation is at most γ times the largest deviation of the entries at the next cell. Entries that recur have a common limsup that is at most γ times itself. The optimal values exist as the fixed point of a contraction, and are shown to be the greatest sums by unrolling. Finitely many values keep a gap, so eventually greedy outputs are optimal.
* **C187 Q-learning on a table in double precision stays near the greatest discounted sums for ever, and its greedy actions become nearly optimal** — One call rounds five operations, so the trained entry deviates from the exact step by at most 16 2^-53 times the sizes plus 8 2^-1075. The relative part is absorbed by enlarging the discount to γ + 16 2^-53 / l, and the rest is a constant perturbation of the contraction of C186. Greedy actions lose at most twice the distance at each call, discounted.
* **C188 Training in double precision is nearly repeatable: runs that differ in the order of hash maps and of sums stay close for ever** — A call in another order acts on features with the same values and counts, and the error bounds of C181 depend on nothing else, so every run stays within E of the same exact run. Predictions in any order are within the rounding error of a sum of k products of the exact one.
* **C189 Fixed sparse bases are compared by content, and equal ones are interchangeable** — Equality of hash sets (as many elements, all contained) is equality of membership for lists without repetitions, by a permutation argument; projections are the mapped lists; updates by the order independence of C140.
* **C190 Momentum and NAG in f64 stay near exact training for ever, if the inputs keep exploring** — Exact calls do not increase the distance of C154 (C176). A run with an error per call that is small relative to the state contracts over L calls (Proofs/Steps), so both the exact run and its distance from the f64 run stay bounded; finiteness by induction. The factor: one call takes a e^2 + a^2 m (1 - m^2) v^2 / 2 from the squared distance, and the weights of the first call are seen by L calls up to what the velocities move them.
* **C191 Momentum and NAG in f64 are nearly repeatable: runs that differ in hash map and summation order stay close for ever** — Both runs are shadowed by the same run of exact training (C190 restated for runs that iterate hash maps in any order); the triangle inequality in the distance of C154. Predictions by the rounding bound of one evaluation.
* **C192 Training in f64 forgets its start and tracks moving targets** — Exact calls minus the reference are linear steps, each followed by a move of at most beta (Proofs/Steps driven_steps); every L steps contract by r. The f64 run is within E of the exact run by C188 and C191.
* **C193 Built-in approximators trained from scratch do not overflow** — C177's per-call error bounds, run in any iteration order (C188), beside exact training from zero, whose length grows by at most l sqrt(s) Y per call. Range facts of the bases from C30, C33, C87, C88 and C89; stacks by C21.
* **C194 Too large a learning rate ruins an f64 approximator in finitely many calls** — Per-call rounding error (C157) in any iteration order (C188). Two quantities: the error of the exact prediction and the product of the lengths of features and weights. The ratio of the two stays below 4 q / (q - 2), so rounding is a small fraction of the error and cannot stop its growth. Finite doubles are below 2^1024, which bounds the error. Loss is permanent and contagious because finite sums and products have finite parts (C107, C108).
* **C195 Adam and AdaMax can move for ever against the average error** — Closed forms for the averages in terms of the errors, one per weight. With the large error C at the start of a period the average is at most C beta1^j minus (1 - beta1) after j calls, and the denominator at least a constant times C beta2^(j/2), so what the large error moves in total is bounded whatever C is; after half a period the denominator is down to a constant and each -1 moves the weight by a constant. Long periods win. N and C come from the limit of J^2 beta2^J.
* **C196 SGD, ISGD, Momentum and Adagrad follow the average error, and NAG only up to a drift** — Summation by parts for Adagrad, whose divisors only grow. For Momentum the sum of the velocities up to T is momentum times the sum up to T - 1 plus the sum of the errors up to T. Closed forms for ISGD and NAG.
* **C197 Training in f64 on a repeated sequence of calls is eventually periodic** — Finitely many doubles, counted by mantissa and exponent; steps keep the lengths and the rates; pigeonhole; a run is determined by its start. The full list of weights and optimiser numbers codes the state.
* **C198 Adagrad's total error on any sequence of inputs is bounded while its weights are, and it learns tables at any rate** — Regret bound of each weight (C98) summed over the weights; the errors of the reference are split off by the arithmetic-geometric mean inequality, leaving a quadratic inequality in the square root of the total error. For tables a step has the sign of the distance and length at most the rate.
* **C199 How fast a prediction can change with the input** — Differences of products telescope; Chebyshev slopes through cosines of multiples of an angle; derivatives of the kernel profiles on the half line; reverse triangle inequality for the scaled distance. The best constants come from the one-sided slope at one point and weights that pick one feature.
* **C200 Adam and AdaMax with momentum stay around a repeated target** — The momentum is a running average of errors that move by at most S per call, so it lags behind the last error by at most S beta1 / (1 - beta1); beyond that distance every step points towards the target, and since the errors are bounded the steps are bounded below, so the error enters the band and cannot leave it.
* **C201 An approximator that learns from its mistakes makes finitely many** — The squared distance to lr R u falls by a fixed amount with each mistake. In f64, induction over the calls: as long as the number of mistakes is within the bound, the integers behind the weights are small enough for predictions, decisions and updates to be exact.
* **C202 The adaptive optimisers cannot be driven to overflow by their own predictions** — Invariants of the rounded state: the accumulator dominates the square of the gradient, so an Adagrad step is at most 1 and is lost in the rounding at 2^53; the first moment stays within 2^42 times the infinity norm (AdaMax), its square within 2^102 times the second moment (Adam), both up to underflow, so a step is at most 2^108.
* **C203 An approximator with an output for each class makes boundedly many mistakes** — The columns form one vector of length m n and a mistake adds the features with sign 1 in the block of the label and -1 in that of the rival, so the squared distance to 2 lr R u falls with every mistake, as in C201. In a table the first mistake of a cell leaves the rate, its negative and zeros, which is right from then on. In f64 with integer features the weights are integers times the rate, bounded by R times the number of mistakes so far, so every sum is exact and the exact count applies.
* **C204 Several outputs, and Q-learning, with Adagrad, AdaMax and Adam do not overflow** — The outputs share the averages and the divisors, so the invariant of C202 splits into a part about the optimiser, kept by a call for any output, and a part about one column of weights. The closed loop is by induction on calls: bounded weights give bounded predictions, these give bounded errors, and these keep the weights bounded.
* **C205 Stacks trained by Adam and AdaMax, and what a bias does to inactive weights** — The features of the stack are those of the parts, entry by entry; whether an index is stored is the same for the stack and its part exactly if the stack's storage is the part's. One call splits the averages and the weights, by the entry-wise account of the optimisers; runs by induction. For the bias two calls are followed from a fresh optimiser.
* **C206 Training a stack is exact to the bit, and what a bias does with infinite errors** — A part is a segment of the stack, stored in the same way; each optimiser computes an entry of its state and weights from the same entry of the old ones and of the features by the same operations. Runs by induction. A stored zero contributes the product of zero and the rate times the error: zero if that is finite, and NaN otherwise.
* **C207 Bootstrapping can ruin an f64 approximator at any learning rate** — The error and the norm of the weights are bounded together by induction on the calls: the error of one call from the bounds of C157, the error of the computed target by the bounds of its product and sum, then a growth lemma whose margin absorbs both. Finite doubles are below 2^1024, so the weights cannot stay finite; a lost weight stays lost and spoils every prediction that uses it. For ISGD the rate of each call, which may vary with the iteration order, is at least a quarter of the exact one by C161, and a margin at that rate suffices for larger ones.
* **C208 Learning the values of a chain in a table in double precision stays near the discounted sums for ever** — A scalar approximator is a vector one with one output (C76) and a chain is an environment with one action, whose greatest discounted sum is the only one. So the calls are those of C187.
* **C209 Training several outputs in double precision is nearly repeatable, and nearly training each output alone** — Define what update_with and evaluate of a vector approximator can do when hash maps iterate in any order, reduce one output to a column whose predictions are strided dot products, apply the shadowing bound of C181 to the column, and compare two runs through the exact one.
* **C210 Several outputs trained from scratch do not overflow** — Reduce one output to a column with strided dot products as in C209, bound each call by C177, and run beside exact training from zero as in C193. The example is four outputs over tile coding for a million calls.
* **C211 Several outputs in double precision forget their start and track moving targets** — Exact calls on one output minus the reference are linear steps, each followed by a move of at most beta, and every L steps contract by r (C192). The f64 column is within E of the exact run by C209.

## Defects found

Each has a theorem (a counterexample beside a `_partial` theorem, or a stated property).

* `Index` on sparse features returns 1.0 for every stored key; the sparse/sparse `Dot<Features>` counts shared keys (C11, C12).
* `map` treats `|f(0)| < 1e-5` as zero; `merge` of dense with sparse leaves the other entries alone; `merge` and
  `merge_into` differ when the dense side is shorter (C07-C09).
* `n_active` counts stored zeros of sparse features (C15).
* `ith` of `Fixed::dense` rejects every index but 0; `ith` of the normalisers panics at inactive sparse indices (C18-C20).
* `with_bias` makes a sparse basis dense, so Adam and AdaMax then move weights of features that are not active (C205).
* `Polynomial::with_zeroth` panics without exponents (C25); deserialising `Chebyshev` drops `with_zeroth` (C27).
* `Fixed::sparse` accepts indices beyond its dimension (C17).
* One degenerate limit makes every Fourier feature NaN.
* `Matern52` uses `sqrt(3)`: it exceeds its variance, grows near 0 and is not positive semidefinite; `Cosine` is not
  positive semidefinite in the plane (C36-C38, C86).
* `RationalQuadratic::default` passes its arguments in the wrong order; `non_ard` kernels on slices ignore all but the
  first coordinate (C38).
* `TileCoding` truncates instead of flooring, so the tile around 0 has 2n-1 cells; large inputs overflow (C32 and nearby).
* `NAG`'s look-ahead uses unscaled features (C52, C57). On a repeated input it therefore settles at `y + m (1 - m) / lr` instead of the target `y` (C116). `Adam`/`AdaMax` start their bias corrections one power late (C54),
  do not reset them (C50), and skip inactive weights for sparse features only (C49).
* A stateful optimiser is shared by all outputs of a `VectorLFA` (C64).
* L0-normalising an empty sparse projection gives dense NaN (C42); the L2 norm underflows and overflows (C87).
* Dense features of length 1 broadcast over all weights.
* With a negative lengthscale the kernels on numbers grow with the distance, unlike those on slices (C106).
* One non-finite weight spreads to all active weights in one training call and never recovers (C107, C108).
* Feature discovery (`ifdd.rs`) only ever forms pairs of features of the inner basis (C111), adds a pair again each time its
  errors reach the threshold (C112), inspects the inactive features of dense projections (C113), and activates a
  conjunction when its parents are inactive (C114).
* `map_inplace` and `merge_inplace` swap an all-zero `Features` into the caller's place: it is destroyed on return and stays
  in place when the closure or an index check panics (C121).
* `ith` of an L0 normaliser reads without a bounds check, and past the end when a `Closure` declares more features than it
  returns (C123).
* The example of the crate documentation (marked `no_run`) ends in an assertion that fails with probability at least 0.92: a rate
  of 1 keeps the last noise sample in the weights (C131).
* Saving and restoring an approximator over `Chebyshev::with_zeroth` gives one that panics when evaluated (C134); restoring a
  Chebyshev basis of order above 11 panics instead of returning an error, and derived restoring checks no invariant (C135). The
  `serde(default)` of the hasher of `TileCoding` hangs on a feature `serialize` that does not exist.
* `TileCoding` never resets its hasher between tilings, so inputs that differ in one tile share no feature of any later tiling;
  how far learning spreads depends on the position of the input (C138).
* `stack`, `Vec::from(features)` and `VectorLFA::update_with` read an array's buffer instead of its elements, so reversed or sliced arrays give wrong features, wrong errors or a panic (C139).
* In `f64` the iteration order of a `HashMap` reaches predictions with three or more active features and the step of ISGD, so a run may not repeat (C140).
* Not a defect of one line, but a limit users meet: training towards the approximator's own predictions diverges for
  every learning rate on some single transitions, and ISGD, which never diverges on fixed targets, does not help
  (C141). It converges on tables (C142) and, for small learning rates, on closed trajectories (C143, C145).
* An `update` that panics may leave half an update behind: with sparse features the indices visited before the bad one
  have moved, and the state of Momentum, NAG, Adam and AdaMax has advanced (C146).
* `VectorLFA` steps all outputs with one optimiser. With Momentum this shrinks the range of usable learning rates: two outputs need
  `lr * |phi|^2 < 2 (1 - momentum^2)` where one needs `< 2 (1 + momentum)`, a factor of ten at momentum 0.9 (C152; C64 for the coupling itself).
* Momentum moves the weights also in calls whose features are all zero. A learning rate that is stable on one
  repeated input can diverge when idle calls come in between (C154).
* Stacking sparse bases with `2^64` features or more panics in a debug build; a release build silently returns a vector shorter than
  each part, in which features overwrite each other. `From<Vec<usize>>` with `usize::MAX` gives a vector of dimension zero (C155).
* `==` on a Chebyshev basis compares function addresses, which Rust does not promise to be unique per function (C166).
* Matern kernels between finite points so far apart that the squared distance overflows are NaN (infinity times zero); the
  other decaying kernels are 0 there (C169).
* In `f64`, with dense features, a vector approximator with several outputs does not predict what scalar approximators with the same
  weights predict: `dot` with a column of the weight matrix uses another order of summation. From eight features on the results can
  differ (0 against 1 in `C150_order_matters`); C93 bounds the difference.
* No basis rejects an input that is NaN or infinite: Fourier features all become NaN, tile coding takes NaN for 0, and one training call
  then ruins the weights for good (C179).
* At an infinite distance the Matern kernels and `Cosine` are NaN although the squared-exponential, exponential and
  rational-quadratic kernels give 0 (C182). `LinfNormaliser` skips NaN activations when it looks for the largest and scales the others
  as though they were not there; L1 and L2 turn every activation into NaN (C183).
* `card` is `Infinite` for bases with finitely many projections (C137); displaying an error appends a line feed (C136).

## Trusted base

* Lean 4.33.0's kernel; axioms at most `propext`, `Classical.choice`, `Quot.sound`. No `sorry`, no added axioms, no `native_decide`/`bv_decide`.
  `AXIOMS.md` lists the axioms of each theorem.
* The reading of the Rust source recorded in the model's comments, and the contracts of external crates listed above.
