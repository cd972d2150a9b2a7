{"id": "C01", "title": "Dense view of features", "statement": "to_dense and into_dense of the same features return the same array; its length is n_features and entry i is the activation stored for feature i (0 when a sparse vector stores none). The conversion panics exactly when a sparse vector stores an index >= its dim.", "quantifier": "all feature vectors, dense or sparse, any dimension, any stored entries, any scalar arithmetic", "why_tests_cant": "an index slip or a stale default shows only at particular dimension/entry combinations; tests sample a few vectors", "anchors": ["src/features.rs: Features::to_dense, Features::into_dense, Features::n_features"]}
{"id": "C02", "title": "Hash iteration order is unobservable", "statement": "SparseActivations is backed by a HashMap with unspecified iteration order. Two sparse vectors holding the same entries give the same to_dense, get, remove, stack, map, merge, addto, scaled_addto and n_active results whatever the iteration order, for any arithmetic including floating point; dot, sum and (for order-insensitive closures) fold agree in exact arithmetic.", "quantifier": "all sparse feature vectors and all pairs of iteration orders", "why_tests_cant": "RandomState picks one order per run; no test enumerates the orders", "anchors": ["src/features.rs: SparseActivations::iter, Features::dot_sparse, Features::sum, Features::fold, Features::stack, Features::merge"]}
{"id": "C03", "title": "dot is the inner product in either representation", "statement": "Features::dot with a weight vector equals sum_i phi_i * w_i where phi is the dense view, for sparse and dense features alike (exact arithmetic). Dense features panic exactly when lengths differ; sparse features panic exactly when a stored index is out of the weights' range.", "quantifier": "all features, all weight vectors", "why_tests_cant": "agreement of two code paths over unbounded vectors", "anchors": ["src/features.rs: Features::dot, Features::dot_dense, Features::dot_sparse"]}
{"id": "C04", "title": "matmul is column-wise dot", "statement": "Features::matmul with an n-by-k matrix returns k numbers; the j-th is sum_i phi_i * W_ij (exact arithmetic) and, in any arithmetic, is dot with column j as a view of the matrix: the number that dot with a copy of the column gives for sparse features, a single column or row, or an arithmetic without rounding, and otherwise the products added from left to right. It panics exactly when dot with one of the columns does.", "quantifier": "all features, all matrices of any shape", "why_tests_cant": "unbounded shapes", "anchors": ["src/features.rs: Features::matmul"]}
{"id": "C05", "title": "addto / scaled_addto change exactly the right weights", "statement": "After scaled_addto(alpha, w) every weight i equals w_i + alpha*phi_i, the length is unchanged, and for sparse features every weight whose index is not stored is bit-for-bit unchanged; addto is the same with alpha = 1. No panic when the features' dimension equals the weights' length.", "quantifier": "all features, weight vectors and alphas", "why_tests_cant": "frame condition over all untouched indices", "anchors": ["src/features.rs: Features::addto, Features::scaled_addto"]}
{"id": "C06", "title": "stack is concatenation", "statement": "For well-formed features, the dense view of a.stack(b) is the dense view of a followed by that of b; n_features add up; the result is sparse exactly when both inputs are sparse, and stacking is associative on dense views.", "quantifier": "all pairs/triples of well-formed features, mixed representations", "why_tests_cant": "offset errors or key collisions only show for particular index sets", "anchors": ["src/features.rs: Features::stack"]}
{"id": "C07", "title": "map is pointwise", "statement": "The dense view of features mapped by f is f applied to every entry of the dense view, and map, map_into, map_inplace agree; dense inputs stay dense.", "quantifier": "all features and all functions f: f64 -> f64", "why_tests_cant": "quantifies over all closures; the code treats |f(0)| < 1e-5 as zero", "anchors": ["src/features.rs: Features::map, Features::map_into, Features::map_inplace"]}
{"id": "C08", "title": "merge is pointwise", "statement": "For two features of equal dimension the dense view of a.merge(b, f) is f(a_i, b_i) at every i, whatever the representations.", "quantifier": "all pairs of features of the same dimension, all binary functions f", "why_tests_cant": "quantifies over all closures and representation pairs", "anchors": ["src/features.rs: Features::merge, Features::merge_into"]}
{"id": "C09", "title": "merge, merge_into and merge_inplace agree", "statement": "Whenever merge returns a value, merge_into and merge_inplace return the same features; merge_into returns strictly more often.", "quantifier": "all pairs of features of any dimensions, all binary functions", "why_tests_cant": "copy-pasted implementations that can drift on any branch", "anchors": ["src/features.rs: Features::merge, Features::merge_into, Features::merge_inplace"]}
{"id": "C10", "title": "remove clears one feature only", "statement": "After remove(i) the dense view has 0 at i and is unchanged elsewhere; out-of-range i is a no-op; n_features and the representation are unchanged; remove is idempotent and removals commute.", "quantifier": "all features, all indices", "why_tests_cant": "frame condition over all other indices", "anchors": ["src/features.rs: Features::remove"]}
{"id": "C11", "title": "Reading one activation agrees with the dense view", "statement": "get(i), uget(i) and indexing features[i] all return the activation at i in the dense view for i < n_features (get on an inactive sparse feature returns None, meaning 0).", "quantifier": "all features and indices", "why_tests_cant": "needs every representation and stored activation value", "anchors": ["src/features.rs: Features::get, Features::uget, Index for Features"]}
{"id": "C12", "title": "Dot product of two features", "statement": "Dot::dot of two features is the inner product of their dense views, for all four representation pairs, and is symmetric.", "quantifier": "all pairs of features of equal dimension", "why_tests_cant": "four code paths over unbounded vectors", "anchors": ["src/features.rs: Dot<Features> for Features"]}
{"id": "C13", "title": "Feature equality", "statement": "== on features of the same representation is reflexive, symmetric and transitive (NaN-free), ignores hash order and insertion order, and implies equal dense views; comparing dense with sparse panics.", "quantifier": "all pairs/triples of features", "why_tests_cant": "equivalence-relation laws quantify over triples", "anchors": ["src/features.rs: PartialEq for Features"]}
{"id": "C14", "title": "Sparse constructors", "statement": "Features::sparse keeps the last activation given for each index; unitary activates exactly the listed indices with 1.0; From<Vec<usize>> does the same with dim = max index + 1 and panics exactly on the empty list; From<SparseActivations> recomputes dim as max index + 1.", "quantifier": "all index/activation lists with duplicates in any position", "why_tests_cant": "duplicates and ordering", "anchors": ["src/features.rs: Features::sparse, Features::unitary, From<Vec<IndexT>>, From<SparseActivations>"]}
{"id": "C15", "title": "n_active counts non-zero features", "statement": "n_active is the number of entries of the dense view with magnitude above 1e-7; for unitary features it is the number of distinct indices.", "quantifier": "all features", "why_tests_cant": "the sparse path counts stored entries instead", "anchors": ["src/features.rs: Features::n_active"]}
{"id": "C16", "title": "sum and fold", "statement": "sum is the total of the dense view in either representation (exact arithmetic); fold over sparse features equals fold over the dense view for every closure that ignores zeros and is insensitive to order.", "quantifier": "all features and fold closures", "why_tests_cant": "quantifies over closures", "anchors": ["src/features.rs: Features::sum, Features::fold"]}
{"id": "C17", "title": "Projections have the advertised dimension", "statement": "Every built-in basis (Bias, Fixed dense/sparse, Polynomial, Chebyshev, Fourier, KernelBasis, TileCoding, UniformGrid and any nesting of Stack and the four normalisers over them) that returns Ok from project returns features with n_features equal to dim(), and no sparse index out of range.", "quantifier": "all bases built by nesting, all inputs", "why_tests_cant": "nesting depth and inputs are unbounded", "anchors": ["src/basis/mod.rs: Basis::n_features, Basis::project", "src/basis/stack.rs", "src/basis/normalisation.rs", "src/basis/tile_coding.rs", "src/basis/uniform_grid.rs"]}
{"id": "C18", "title": "ith agrees with project", "statement": "For every index i < dim, ith(input, i) returns the i-th entry of the dense view of project(input), for Bias, Fixed, Polynomial, Chebyshev, Fourier, KernelBasis, TileCoding, UniformGrid and Stack of such bases, in any arithmetic.", "quantifier": "all inputs, all indices, all basis parameters", "why_tests_cant": "a second implementation of every basis must agree everywhere", "anchors": ["src/basis/*.rs: EnumerableBasis::ith"]}
{"id": "C19", "title": "ith rejects out-of-range indices", "statement": "ith returns the index error naming the index and the dimension whenever index >= dim and never returns that error for index < dim.", "quantifier": "all bases, inputs, indices", "why_tests_cant": "boundary must be right for every dimension", "anchors": ["src/error.rs: check_index!, Error::index_error", "src/basis/*.rs: ith"]}
{"id": "C20", "title": "ith of normalised bases", "statement": "ith of an L0/L1/L2/Linf-normalised basis agrees with the i-th entry of the dense view of its projection for every i < dim.", "quantifier": "all inner bases, inputs and indices", "why_tests_cant": "depends on the inner basis' representation and activity pattern", "anchors": ["src/basis/normalisation.rs: EnumerableBasis for L*Normaliser"]}
{"id": "C21", "title": "Stack projects both bases in order", "statement": "Stack.project is the concatenation of the two projections, fails with the first basis' error if it fails, otherwise with the second's; dim is the sum.", "quantifier": "all pairs of bases and inputs", "why_tests_cant": "all combinations of failure", "anchors": ["src/basis/stack.rs: Stack"]}
{"id": "C22", "title": "with_bias adds an intercept", "statement": "A scalar LFA over basis.with_bias() evaluates to the LFA over basis with the leading weights plus the last weight.", "quantifier": "all bases, weights and inputs", "why_tests_cant": "unbounded dimension", "anchors": ["src/basis/mod.rs: Combinators::with_bias", "src/basis/constant.rs: Bias"]}
{"id": "C23", "title": "Multi-index enumeration", "statement": "Polynomial, Chebyshev and Fourier of order p over d >= 1 inputs have exactly (p+1)^d - 1 features: every non-zero multi-index with entries in 0..=p, once each, in lexicographic order.", "quantifier": "all orders and dimensions", "why_tests_cant": "exponential family; tests cover d <= 2", "anchors": ["src/basis/mod.rs: compute_coefficients", "src/basis/polynomial/mod.rs", "src/basis/fourier.rs"]}
{"id": "C24", "title": "Polynomial features are monomials", "statement": "Each feature of a Polynomial basis is the product of x_j^e_j for its multi-index e, and with exact arithmetic an LFA over it can represent every such polynomial without constant term.", "quantifier": "all inputs of the right length, all orders/dimensions", "why_tests_cant": "all real inputs", "anchors": ["src/basis/polynomial/mod.rs: Polynomial::project, compute_feature"]}
{"id": "C25", "title": "with_zeroth appends a constant feature", "statement": "Polynomial::with_zeroth and Chebyshev::with_zeroth append exactly one feature, equal to 1 for every input, leaving the others unchanged.", "quantifier": "all orders, dimensions and inputs", "why_tests_cant": "degenerate orders/dimensions", "anchors": ["src/basis/polynomial/mod.rs: with_zeroth"]}
{"id": "C26", "title": "Chebyshev polynomials", "statement": "The twelve hard-coded polynomials are the Chebyshev polynomials T_0..T_11; the basis accepts order <= 11 and panics above; each feature is the product of T_e_j of the rescaled coordinates; inside the limits every feature lies in [-1,1].", "quantifier": "all real inputs, all orders, dimensions and limits", "why_tests_cant": "polynomial identities over all reals", "anchors": ["src/basis/polynomial/cpfk.rs", "src/basis/polynomial/mod.rs: Chebyshev"]}
{"id": "C27", "title": "Chebyshev serde round trip", "statement": "Deserialising a serialised Chebyshev basis (sequence or map form, any field order) gives a basis with the same order, limits and projection; duplicated, missing fields are reported as errors.", "quantifier": "all Chebyshev values and field orders", "why_tests_cant": "all values", "anchors": ["src/basis/polynomial/mod.rs: Deserialize for Chebyshev"]}
{"id": "C28", "title": "Fourier features", "statement": "Each Fourier feature is cos(pi * c.s) with s the input rescaled to the limits; it lies in [-1,1] for every input, is 1 at the lower corner, (-1)^(sum c) at the upper corner, and is 2-periodic in each rescaled coordinate.", "quantifier": "all inputs, limits and orders", "why_tests_cant": "all real inputs", "anchors": ["src/basis/fourier.rs: Fourier::project"]}
{"id": "C29", "title": "Input rescaling", "statement": "Rescaling maps each input affinely so that the lower limit goes to 0 and the upper to 1; inside the limits the result is in [0,1]; it is strictly monotone; a degenerate limit (lo = hi) yields NaN or infinity rather than a finite value.", "quantifier": "all inputs and limits", "why_tests_cant": "all real inputs, special values", "anchors": ["src/basis/mod.rs: rescale!, get_bounds"]}
{"id": "C30", "title": "TileCoding activity", "statement": "TileCoding with n tilings and memory m activates between 1 and n features (none when n = 0), all with activation 1 and index < m, deterministically in the input; it panics exactly when m = 0 < n or an integer overflow occurs.", "quantifier": "all hashers, inputs, tilings and memory sizes", "why_tests_cant": "all hash functions", "anchors": ["src/basis/tile_coding.rs: hash_state, TileCoding::project"]}
{"id": "C31", "title": "TileCoding generalises within tiles", "statement": "Two inputs whose coordinates fall in the same 1/n-wide cells have identical projections, for every hasher.", "quantifier": "all hashers and input pairs", "why_tests_cant": "all pairs of real inputs", "anchors": ["src/basis/tile_coding.rs: bin_state"]}
{"id": "C32", "title": "TileCoding tiles have uniform width", "statement": "In each tiling every tile covers exactly n consecutive cells of each coordinate.", "quantifier": "all integer cells and tilings", "why_tests_cant": "only negative inputs expose truncating division", "anchors": ["src/basis/tile_coding.rs: hash_state"]}
{"id": "C33", "title": "UniformGrid activates exactly one in-range cell", "statement": "For every grid of at least one dimension and every non-empty input UniformGrid.project activates exactly one feature with activation 1, its index is < n_features, and no intermediate value of the index computation reaches n_features.", "quantifier": "all grids and inputs", "why_tests_cant": "all grid shapes", "anchors": ["src/basis/uniform_grid.rs: UniformGrid::hash"]}
{"id": "C34", "title": "UniformGrid indexing is a bijection", "statement": "On a grid of at least one dimension, two full-length inputs activate the same feature iff they fall into the same partition in every coordinate, and every feature index is activated by some input.", "quantifier": "all grids, all pairs of inputs", "why_tests_cant": "collisions over unbounded grids", "anchors": ["src/basis/uniform_grid.rs: UniformGrid::hash"]}
{"id": "C35", "title": "Kernel grids follow the uniform grid", "statement": "Over a grid of at least one dimension KernelBasis::exp_quad / matern_32 / matern_52 create one prototype per grid cell; the k-th prototype's centroid is the centre of the cell that UniformGrid numbers k.", "quantifier": "all grids", "why_tests_cant": "all grid shapes", "anchors": ["src/basis/kernelised.rs: exp_quad, matern_32, matern_52", "src/basis/uniform_grid.rs"]}
{"id": "C36", "title": "Kernels are symmetric and peak at zero distance", "statement": "For positive variance every stationary kernel is symmetric, equals its variance at x = y, and never exceeds the variance in magnitude.", "quantifier": "all points, lengthscales, variances", "why_tests_cant": "all real inputs", "anchors": ["src/basis/kernels/stationary.rs", "src/basis/kernels/rational_quadratic.rs"]}
{"id": "C37", "title": "Kernels decay with distance", "statement": "Exponential, Matern32, Matern52, ExpQuad and RationalQuadratic (positive power) are positive and non-increasing in the scaled distance.", "quantifier": "all distances", "why_tests_cant": "monotonicity over all reals", "anchors": ["src/basis/kernels/stationary.rs", "src/basis/kernels/rational_quadratic.rs"]}
{"id": "C38", "title": "Kernel values use every coordinate", "statement": "The kernel between two slices depends on every coordinate, with lengthscale l_i for coordinate i (the same l for all in the non-ARD constructors).", "quantifier": "all points and constructors", "why_tests_cant": "only inputs longer than lengthscales expose zip truncation", "anchors": ["src/basis/kernels/stationary.rs: non_ard, Kernel<&[f64]>"]}
{"id": "C39", "title": "Scalar and slice kernels agree", "statement": "kernel(x, y) on numbers equals the kernel on one-element slices for every positive first lengthscale.", "quantifier": "all reals", "why_tests_cant": "sqrt(z^2) = |z| for all reals", "anchors": ["src/basis/kernels/stationary.rs", "src/basis/kernels/rational_quadratic.rs"]}
{"id": "C40", "title": "Normalisers produce unit norm", "statement": "If the inner projection is not all zero, the L1/L2/Linf-normalised projection has L1/L2/Linf norm exactly 1 (exact arithmetic), keeps the representation, dimension and signs.", "quantifier": "all inner projections", "why_tests_cant": "all non-zero vectors", "anchors": ["src/basis/normalisation.rs: project"]}
{"id": "C41", "title": "Normalisation is scale invariant and idempotent", "statement": "L1/L2/Linf normalisation of c*phi equals that of phi for c > 0, and normalising twice equals normalising once.", "quantifier": "all projections and positive scalings", "why_tests_cant": "all vectors", "anchors": ["src/basis/normalisation.rs: project"]}
{"id": "C42", "title": "Normalising a null projection", "statement": "With IEEE special values: normalising an all-zero dense projection gives NaN in every entry for L0, L1, L2 and Linf; an empty sparse projection stays empty under L1/L2/Linf, but under L0 becomes a dense vector of NaN.", "quantifier": "all dimensions", "why_tests_cant": "degenerate inputs of every dimension", "anchors": ["src/basis/normalisation.rs: project", "src/features.rs: map_into"]}
{"id": "C43", "title": "L0 normalisation divides by the active count", "statement": "The L0-normalised projection is each activation divided by n_active of the inner projection; unitary inner features then sum to 1.", "quantifier": "all inner projections with an active feature", "why_tests_cant": "all vectors", "anchors": ["src/basis/normalisation.rs: L0Normaliser"]}
{"id": "C44", "title": "Optimiser steps never fail on matching sizes", "statement": "For every optimiser created for n parameters, any weights of length n and well-formed features of dimension n: step and step_scaled return Ok, do not panic, keep the weights' length and the optimiser's size, over any history of steps and resets.", "quantifier": "all optimisers, histories, features", "why_tests_cant": "all histories", "anchors": ["src/optim/*.rs: step, step_scaled"]}
{"id": "C45", "title": "step is step_scaled by 1", "statement": "For each optimiser step(w, f) has the same effect on weights and state as step_scaled(w, f, 1.0).", "quantifier": "all optimisers, states, inputs", "why_tests_cant": "overridden methods can drift", "anchors": ["src/optim/mod.rs: Optimiser::step", "src/optim/sgd.rs", "src/optim/isgd.rs"]}
{"id": "C46", "title": "SGD history is a weighted sum", "statement": "After any sequence of SGD steps the weights are the initial weights plus lr * sum_k scale_k * phi_k; hence the order of steps is irrelevant in exact arithmetic.", "quantifier": "all histories and permutations", "why_tests_cant": "all histories", "anchors": ["src/optim/sgd.rs"]}
{"id": "C47", "title": "SGD residual contraction", "statement": "Repeating update_with on one input with target y under SGD multiplies the residual by (1 - lr*|phi|^2) each time; the residual tends to 0 iff |1 - lr*|phi|^2| < 1 (or it is already 0).", "quantifier": "all step counts, features, targets", "why_tests_cant": "unbounded steps / limits", "anchors": ["src/optim/sgd.rs", "src/lib.rs: ScalarLFA::update_with"]}
{"id": "C48", "title": "ISGD is the implicit update and always contracts", "statement": "An ISGD step with error e scales the residual by 1/(1 + lr*|phi|^2), i.e. it solves w' = w + lr*(y - w'.phi)*phi exactly; with lr > 0 it never increases the residual for any lr.", "quantifier": "all learning rates, features, targets", "why_tests_cant": "all reals", "anchors": ["src/optim/isgd.rs"]}
{"id": "C49", "title": "Sparse and dense features train identically", "statement": "For every optimiser, stepping with sparse features has the same effect on weights and optimiser state as stepping with their dense view.", "quantifier": "all optimisers, states, features", "why_tests_cant": "two code paths per optimiser", "anchors": ["src/optim/*.rs: step_scaled"]}
{"id": "C50", "title": "reset restores the initial optimiser", "statement": "After any history of steps, reset makes the optimiser equal to a freshly constructed one with the same parameters.", "quantifier": "all histories", "why_tests_cant": "all histories", "anchors": ["src/optim/*.rs: reset"]}
{"id": "C51", "title": "Momentum velocity", "statement": "After steps with gradients g_1..g_k SGDMomentum's velocity is sum_i m^(k-i) g_i and the weights moved by lr times the sum of velocities; if |g_i| <= G and 0 <= m < 1 every velocity entry stays within G/(1-m).", "quantifier": "all histories", "why_tests_cant": "all histories", "anchors": ["src/optim/momentum.rs"]}
{"id": "C52", "title": "NAG applies the look-ahead with the scaled gradient", "statement": "A NAG step moves the weights by lr*(v' + m*g)-style look-ahead built from the scaled gradient g = scale*phi; with zero velocity and zero scale it leaves the weights unchanged.", "quantifier": "all states and inputs", "why_tests_cant": "all inputs", "anchors": ["src/optim/nesterov.rs"]}
{"id": "C53", "title": "Adagrad accumulates squares and takes bounded steps", "statement": "Adagrad's accumulator is the sum of squared gradients, never decreases, and each step changes each weight by less than |lr|, in the direction of the gradient.", "quantifier": "all histories", "why_tests_cant": "all histories", "anchors": ["src/optim/adagrad.rs"]}
{"id": "C54", "title": "Adam bias correction", "statement": "At the t-th step Adam divides the moments by 1 - beta1^t and 1 - beta2^t, so with a constant gradient the corrected moments equal g and g^2 exactly.", "quantifier": "all step counts and betas", "why_tests_cant": "all histories", "anchors": ["src/optim/adam.rs"]}
{"id": "C55", "title": "Adam is numerically safe and takes bounded steps", "statement": "For 0 <= beta < 1 every denominator Adam uses is positive at every step of every history, the second moment is never negative, and for beta1^2 < beta2 each weight moves by at most a constant depending only on lr and the betas.", "quantifier": "all histories", "why_tests_cant": "all histories", "anchors": ["src/optim/adam.rs"]}
{"id": "C56", "title": "AdaMax infinity norm", "statement": "AdaMax's second state is max_i beta2^(k-i)|g_i| over the history, every denominator is positive, and for beta1 < beta2 each weight moves by at most a constant depending only on lr and the betas.", "quantifier": "all histories", "why_tests_cant": "all histories", "anchors": ["src/optim/adamax.rs"]}
{"id": "C57", "title": "A zero error changes nothing", "statement": "step_scaled with scale factor 0 leaves all weights unchanged for a freshly constructed optimiser.", "quantifier": "all optimisers, features and weights", "why_tests_cant": "all inputs", "anchors": ["src/optim/*.rs: step_scaled", "src/lib.rs: update"]}
{"id": "C58", "title": "Inactive weights are left alone", "statement": "Stepping with sparse features leaves every weight whose index is not active unchanged for SGD, ISGD, Adam and AdaMax in any arithmetic, and for Adagrad in exact arithmetic, over any history.", "quantifier": "all histories and indices never activated", "why_tests_cant": "frame condition over histories", "anchors": ["src/optim/*.rs: step_scaled"]}
{"id": "C59", "title": "Fresh approximators evaluate to zero", "statement": "LFA::scalar and LFA::vector over a basis have weights of shape dim (x n_outputs), all zero, and evaluate to 0 on every input the basis accepts with finite features. If a feature is infinite or NaN, every output is NaN instead.", "quantifier": "all bases and inputs", "why_tests_cant": "all inputs", "anchors": ["src/lib.rs: scalar, vector, evaluate"]}
{"id": "C60", "title": "Failed projections have no effect", "statement": "If the basis returns an error, evaluate, evaluate_index, try_iter, update, update_index and update_with return that error and leave weights and optimiser unchanged; iter panics.", "quantifier": "all bases, inputs, optimisers", "why_tests_cant": "all failing inputs", "anchors": ["src/lib.rs: ScalarLFA, VectorLFA"]}
{"id": "C61", "title": "update_with is update at the current prediction", "statement": "update_with(x, f) equals update(x, f(phi(x), evaluate(x))) evaluated before the step, for scalar and vector approximators.", "quantifier": "all closures, inputs and states", "why_tests_cant": "quantifies over closures", "anchors": ["src/lib.rs: update_with"]}
{"id": "C62", "title": "Vector evaluation is consistent", "statement": "evaluate, evaluate_index, iter and try_iter agree: evaluate(x)[j] = evaluate_index(x, j) = j-th item of iter(x); there are exactly n_outputs items and the iterator reports its exact remaining length at every point; evaluate_index panics exactly for j >= n_outputs (when the basis accepts x).", "quantifier": "all inputs, outputs, iterator positions", "why_tests_cant": "all positions", "anchors": ["src/lib.rs: VectorLFA, OutputIter"]}
{"id": "C63", "title": "update_index touches one column", "statement": "update_index(x, j, e) changes only column j and gives it the value a scalar update would; other outputs are unchanged for every input.", "quantifier": "all inputs, indices, optimisers", "why_tests_cant": "frame condition", "anchors": ["src/lib.rs: VectorLFA::update_index"]}
{"id": "C64", "title": "Vector updates treat outputs independently", "statement": "Updating a vector LFA with errors e_0..e_k-1 acts on each column as a separate scalar LFA with its own copy of the optimiser would, over any history.", "quantifier": "all histories and optimisers", "why_tests_cant": "needs several stateful steps", "anchors": ["src/lib.rs: VectorLFA::update"]}
{"id": "C65", "title": "Short or long error lists", "statement": "VectorLFA::update with fewer errors than outputs updates only the leading columns and leaves the rest unchanged; surplus errors are ignored.", "quantifier": "all lengths", "why_tests_cant": "all lengths", "anchors": ["src/lib.rs: VectorLFA::update, update_with"]}
{"id": "C66", "title": "Optimiser errors in vector updates", "statement": "If the optimiser fails on some columns, VectorLFA::update still steps every column that has an error value and returns the first failure.", "quantifier": "all optimisers and failure patterns", "why_tests_cant": "all failure patterns", "anchors": ["src/lib.rs: VectorLFA::update"]}
{"id": "C67", "title": "Training never panics", "statement": "A scalar or vector LFA built over any nesting of built-in bases and any built-in optimiser of matching size (Fixed::sparse leaves holding in-range indices only) never panics during any sequence of evaluate and update calls on inputs the basis accepts, and the weights keep their shape.", "quantifier": "all bases, optimisers and call histories", "why_tests_cant": "all histories", "anchors": ["src/lib.rs: LFA", "src/optim/*.rs", "src/basis/*.rs"]}
{"id": "C68", "title": "SGD update moves the prediction by lr*e*|phi|^2", "statement": "After update(x, e) under SGD the evaluation at any x' changes by lr*e*<phi(x), phi(x')>.", "quantifier": "all inputs, pairs of inputs", "why_tests_cant": "all pairs", "anchors": ["src/lib.rs: ScalarLFA::update, evaluate"]}
{"id": "C69", "title": "SGD is robust to noise", "statement": "For any example sequence, any reference weights v and targets, online SGD with lr*|phi|^2 <= 1 keeps the total squared prediction error against v (plus the final weight distance over lr) at most the total squared noise of the targets against v plus the initial weight distance over lr.", "quantifier": "all bases, sequences, targets, reference weights and starting weights", "why_tests_cant": "quantifies over unbounded adversarial sequences", "anchors": ["src/lib.rs: ScalarLFA::update_with", "src/optim/sgd.rs"]}
{"id": "C70", "title": "ISGD is robust to noise for every learning rate", "statement": "Implicit SGD with any lr > 0 satisfies the noise bound of online SGD for the predictions made just after each update, with no condition on lr.", "quantifier": "all bases, sequences, targets, learning rates", "why_tests_cant": "quantifies over unbounded adversarial sequences", "anchors": ["src/lib.rs: ScalarLFA::update_with", "src/optim/isgd.rs"]}
{"id": "C71", "title": "Realisable targets are learnt from any input sequence", "statement": "If some weights reproduce every target then SGD (lr*|phi|^2 <= c < 2) and ISGD (any lr > 0, bounded features) have a finite total squared error, with an explicit bound, and prediction errors tend to 0 on every infinite input sequence; under SGD the distance to the reproducing weights never grows.", "quantifier": "all infinite input sequences", "why_tests_cant": "a limit over infinite sequences", "anchors": ["src/lib.rs: ScalarLFA::update_with", "src/optim/sgd.rs", "src/optim/isgd.rs"]}
{"id": "C72", "title": "SGD predictions are kernel expansions", "statement": "After any list of SGD updates (x_k, e_k), the prediction at any y is the old prediction plus lr * sum_k e_k <phi(x_k), phi(y)>.", "quantifier": "all update lists and query points", "why_tests_cant": "all histories", "anchors": ["src/lib.rs: ScalarLFA::update, evaluate", "src/optim/sgd.rs"]}
{"id": "C73", "title": "Normalised approximators give bounded predictions", "statement": "Over an L1-normalised basis the prediction is at most the largest weight magnitude, and lies between the smallest and largest weight for non-negative features; over an L2-normalised basis its square is at most the sum of squared weights.", "quantifier": "all inner bases, inputs, weights", "why_tests_cant": "all inputs", "anchors": ["src/basis/normalisers.rs", "src/lib.rs: ScalarLFA::evaluate"]}
{"id": "C74", "title": "A uniform grid approximator is a table", "statement": "Inputs in the same cell of a UniformGrid get identical predictions for any weights and arithmetic; updating one cell never changes the prediction in another; under SGD update(x, e) moves the prediction in the cell of x by exactly lr*e.", "quantifier": "all grids, inputs, weights", "why_tests_cant": "all pairs of inputs", "anchors": ["src/basis/uniform_grid.rs", "src/lib.rs: ScalarLFA"]}
{"id": "C75", "title": "Updates are local", "statement": "Updates at inputs whose active features are disjoint from those at y never change the prediction at y under SGD, ISGD, Adam, AdaMax (any arithmetic) or Adagrad (exact arithmetic).", "quantifier": "all update sequences and bases", "why_tests_cant": "frame condition over histories", "anchors": ["src/lib.rs: ScalarLFA::update, evaluate", "src/optim/*.rs"]}
{"id": "C76", "title": "A one-output vector approximator is a scalar one", "statement": "LFA::vector with one output constructs, evaluates and updates exactly as LFA::scalar over the same basis and optimiser, with the same panics and errors, over any history.", "quantifier": "all bases, optimisers, histories", "why_tests_cant": "relational over histories", "anchors": ["src/lib.rs: ScalarLFA, VectorLFA"]}
{"id": "C77", "title": "A vector update is a sequence of column updates", "statement": "VectorLFA::update(x, es) equals calling update_index(x, j, es[j]) for j = 0, 1, ... in order with the shared optimiser, including the result (the first failure) and panics.", "quantifier": "all inputs, error lists, optimisers", "why_tests_cant": "relational over stateful optimisers", "anchors": ["src/lib.rs: VectorLFA::update, update_index"]}
{"id": "C78", "title": "Momentum zero is plain SGD", "statement": "SGDMomentum and NAG with momentum 0 produce the same weights as SGD with the same learning rate over any history of steps and resets.", "quantifier": "all histories", "why_tests_cant": "relational over histories", "anchors": ["src/optim/momentum.rs", "src/optim/nesterov.rs", "src/optim/sgd.rs"]}
{"id": "C79", "title": "NAG closed form", "statement": "After any history of steps NAG's velocity is the discounted gradient sum and each weight has moved by lr times the sum of velocities plus momentum times the sum of the raw (unscaled) features.", "quantifier": "all histories", "why_tests_cant": "all histories", "anchors": ["src/optim/nesterov.rs"]}
{"id": "C80", "title": "What map does to every input", "statement": "map with |f(0)| < 1e-5 keeps sparse features sparse with stored entries exactly the images of the stored ones; any other f gives the dense array of images and panics exactly when an index >= dim is stored.", "quantifier": "all sparse features, closures, arithmetics", "why_tests_cant": "quantifies over closures and stored entries", "anchors": ["src/features.rs: Features::map, map_into, map_inplace"]}
{"id": "C81", "title": "What merge does to every pair", "statement": "merge: dense/dense combines entrywise, repeats a length-1 right operand and panics for any other length mismatch; dense/sparse applies the closure at stored indices only and panics exactly for a stored index beyond the dense operand; sparse/dense combines every dense entry and panics exactly when the dense side is shorter than dim; sparse/sparse stores exactly the union of indices and never panics.", "quantifier": "all features of any two dimensions and all closures", "why_tests_cant": "quantifies over closures, dimensions and stored entries", "anchors": ["src/features.rs: Features::merge"]}
{"id": "C82", "title": "Representation queries agree", "statement": "is_dense is the negation of is_sparse; map_dense and map_sparse return a value exactly on their representation, computed from its contents; map_either agrees with whichever returns.", "quantifier": "all features and closures", "why_tests_cant": "quantifies over closures", "anchors": ["src/features.rs: is_dense, is_sparse, map_dense, map_sparse, map_either"]}
{"id": "C83", "title": "from_space uses the bounds of the space", "statement": "Fourier::from_space and Chebyshev::from_space equal new with the interval bounds in order, and panic exactly when a bound is missing (or, for Chebyshev, the order exceeds 11).", "quantifier": "all spaces and orders", "why_tests_cant": "all spaces", "anchors": ["src/basis/fourier.rs: from_space", "src/basis/polynomial/mod.rs: Chebyshev::from_space", "src/basis/mod.rs: get_bounds"]}
{"id": "C84", "title": "Default ith", "statement": "The default EnumerableBasis::ith returns entry i of dense or unit-valued projections, an index error beyond the dimension without projecting, the projection's error otherwise, panics for infinite dimensions, and returns 1 for every stored activation of a sparse projection.", "quantifier": "all bases, inputs and indices", "why_tests_cant": "quantifies over user-defined bases", "anchors": ["src/basis/mod.rs: EnumerableBasis::ith"]}
{"id": "C85", "title": "Index errors identify the access; comparison helpers", "statement": "Error::index_error is injective in (index, dim) and of the Basis kind. compare_floats holds exactly when entries at common positions are within tolerance (length differences are ignored) and fails on any NaN there; eq_with_nan_eq accepts two NaNs and rejects a NaN against a number.", "quantifier": "all indices and dimensions; all float lists", "why_tests_cant": "injectivity over all numbers", "anchors": ["src/error.rs: Error::index_error", "src/utils.rs"]}
{"id": "C86", "title": "Built-in kernels are positive semidefinite", "statement": "For non-negative variance every Gram matrix of a built-in kernel is positive semidefinite: for all finite point sets of a common dimension and all coefficients, sum_ij c_i c_j k(x_i, x_j) >= 0. Rational quadratic needs power >= 0.", "quantifier": "all kernels, length scales, finite sets of points of any size and dimension, coefficients", "why_tests_cant": "quantifies over all finite point sets and real coefficients", "anchors": ["src/basis/kernels/stationary.rs", "src/basis/kernels/rational_quadratic.rs"]}
{"id": "C87", "title": "Normalised activations stay in [-1, 1] under rounding", "statement": "In floating point, normalising finite activations that are not all zero gives numbers in [-1, 1] with the sign of the original activation, even when the norm overflows; the largest activation becomes exactly 1 or -1 under Linf. L1 and Linf: always; L2: claimed likewise.", "quantifier": "all monotone, odd, idempotent roundings; all finite activations of any number", "why_tests_cant": "quantifies over roundings and all floats, including subnormals and overflow", "anchors": ["src/basis/normalisation.rs", "src/features.rs: Features::map_into"]}
{"id": "C88", "title": "Rescaled inputs, monomials and Fourier features stay in range under rounding", "statement": "In floating point, an input within its limits rescales to a number in [0, 1], exactly 0 at the lower and 1 at the upper limit; polynomial features of inputs in [-1, 1] (or [0, 1]) stay there; Fourier features of in-limit inputs are in [-1, 1], never NaN, as long as 4 * order * dims is a representable range of integers (2^53 in f64).", "quantifier": "all monotone, odd, idempotent roundings, all summation orders, orders and dimensions", "why_tests_cant": "quantifies over roundings, sizes and all floats", "anchors": ["src/basis/mod.rs: rescale!", "src/basis/fourier.rs", "src/basis/polynomial/mod.rs"]}
{"id": "C89", "title": "Kernels under rounding", "statement": "In floating point every built-in kernel is exactly symmetric, whatever its arguments (NaN and infinities included); equals its variance at zero distance; Exponential, ExpQuad and RationalQuadratic between finite points lie in [0, variance] even when the distance overflows; Exponential never grows with distance.", "quantifier": "all roundings, parameters, points and dimensions", "why_tests_cant": "quantifies over roundings and all floats", "anchors": ["src/basis/kernels/mod.rs", "src/basis/kernels/stationary.rs", "src/basis/kernels/rational_quadratic.rs"]}
{"id": "C90", "title": "Adagrad never overflows", "statement": "In f64, Adagrad with learning rate in [-1, 1] keeps every weight finite and its accumulator non-NaN, non-negative and non-decreasing through every history of steps with finite gradients and resets, even when squared gradients overflow; each weight moves in the direction of learning rate times gradient or not at all.", "quantifier": "all histories of any length, all finite f64 gradients and weights", "why_tests_cant": "quantifies over all histories and floats, including overflow of the accumulator", "anchors": ["src/optim/adagrad.rs"]}
{"id": "C91", "title": "Optimisers stay finite in f64", "statement": "In f64, SGD, ISGD, SGDMomentum, NAG, Adam and AdaMax with learning rates of magnitude at most 1 and decay rates in [0, 1) keep every weight finite through every history of steps whose activations and gradients are at most 2^500 in magnitude; velocity and moment estimates stay bounded, second moments non-negative, bias corrections never divide by zero.", "quantifier": "all histories of any length, all f64 weights, summation orders", "why_tests_cant": "quantifies over unbounded histories: no accumulated rounding can break it", "anchors": ["src/optim/sgd.rs", "src/optim/isgd.rs", "src/optim/momentum.rs", "src/optim/nesterov.rs", "src/optim/adam.rs", "src/optim/adamax.rs"]}
{"id": "C92", "title": "An update never moves its own prediction the wrong way", "statement": "In any rounded arithmetic, after an SGD or ISGD update of a scalar approximator the prediction at the same input is not below the old one when learning rate times error is non-negative and not above it when non-positive (unless the new prediction is NaN); updating towards a target moves the prediction towards the target or leaves it; a zero error leaves the approximator unchanged. (Both predictions visit sparse activations in the same order.)", "quantifier": "all monotone roundings, summation orders, bases, finite weights and activations", "why_tests_cant": "rounding could reverse the direction; it holds for every machine and every size", "anchors": ["src/lib.rs: ScalarLFA::update", "src/optim/sgd.rs", "src/optim/isgd.rs"]}
{"id": "C93", "title": "Accuracy of predictions in f64", "statement": "A finite f64 prediction differs from the exact inner product of weights and activations by at most ((1+2^-53)^k - 1) times the sum of magnitudes of its k stored terms, plus k(1+2^-53)^k 2^-1075 for underflow, whatever order the terms are summed in; two iteration orders of the same sparse activations give predictions within twice that.", "quantifier": "all f64 weights and activations, all lengths and summation orders", "why_tests_cant": "quantifies over all lengths, floats and orders", "anchors": ["src/lib.rs: ScalarLFA::evaluate, VectorLFA::evaluate", "src/features.rs: Features::dot"]}
{"id": "C94", "title": "Accuracy of gradient ascent in f64", "statement": "After any history of T SGD calls and resets in which the weights stay finite, each f64 weight differs from its start plus the exact sum of learning rate times scale times activation by at most ((1+2^-53)^(T+2) - 1) times the sum of the magnitudes of those, plus underflow.", "quantifier": "all histories of any length, all f64 values", "why_tests_cant": "quantifies over unbounded histories", "anchors": ["src/optim/sgd.rs"]}
{"id": "C95", "title": "Accuracy of L1 normalisation in f64", "statement": "For activations that are finite, not all zero, at most 2^40 stored and of total magnitude at most 2^1022, the magnitudes of the L1-normalised activations add up to 1 within (k+1) 2^-51, k being the number stored.", "quantifier": "all bases, inputs and f64 activations in that range, all summation orders", "why_tests_cant": "quantifies over all lengths and floats", "anchors": ["src/basis/normalisation.rs: L1"]}
{"id": "C96", "title": "Accuracy of polynomial features in f64", "statement": "For every order, dimension and f64 input in [-1, 1]^d, each polynomial feature lies in [-1, 1] and differs from the exact monomial by at most its total degree times 2^-52, whatever association powi uses.", "quantifier": "all orders, dimensions, inputs and associations of powi", "why_tests_cant": "quantifies over all orders, dimensions and floats", "anchors": ["src/basis/polynomial/"]}
{"id": "C97", "title": "Regret of SGD against any reference weights", "statement": "For SGD, 2 lr sum_t g_t.(u - w_t) = |u - w_0|^2 - |u - w_T|^2 + lr^2 sum_t |g_t|^2 for all reference weights u, numbers of calls T and gradients g_t. Hence, when each call gets a supergradient of some objective at the current weights, no fixed weights collect more than |u - w_0|^2/(2 lr) + (lr/2) sum |g_t|^2 beyond the weights in use, even if the objectives change adversarially; on one objective with bounded gradients some iterate is within |u - w_0|^2/(2 lr T) + lr G/2 of every u.", "quantifier": "all runs of any length, reference weights, gradients and objectives, in exact arithmetic", "why_tests_cant": "quantifies over adversarial infinite runs and all reference points", "anchors": ["src/optim/sgd.rs"]}
{"id": "C98", "title": "Regret of Adagrad against any reference weights", "statement": "For a fresh Adagrad and a run of T steps in which weight i stays within D of the reference weight u_i, sum_t g_ti (u_i - w_ti) is at most (D^2/(2 lr) + lr) sqrt(sum_t g_ti^2) + D^2 1e-7/(2 lr); summed over the weights this bounds the regret on arbitrarily changing objectives, without the learning rate depending on T or on the size of the gradients.", "quantifier": "all step-only runs of any length, reference weights, gradients and objectives, in exact arithmetic", "why_tests_cant": "quantifies over adversarial infinite runs", "anchors": ["src/optim/adagrad.rs"]}
{"id": "C99", "title": "Polynomial and Chebyshev predictions determine the weights", "statement": "The predictions of an order-p Polynomial approximator over d inputs on any grid with more than p values per coordinate determine all (p+1)^d - 1 weights; with the constant feature and exactly p+1 values per coordinate, every set of targets on the grid is fitted by exactly one weight vector. The same holds for Chebyshev (p at most 11, non-degenerate limits). With fewer grid values it fails.", "quantifier": "all orders, numbers of inputs, grids, weights and targets, in exact arithmetic", "why_tests_cant": "quantifies over all weight vectors and all infinite families of grids", "anchors": ["src/basis/polynomial/", "src/lib.rsevaluate"]}
{"id": "C100", "title": "Fourier and grid predictions determine the weights", "statement": "The predictions of a Fourier approximator on any box with interior, however small, determine all its weights. For uniform grids, weights correspond one to one to functions that are constant on cells.", "quantifier": "all orders, inputs, limits, boxes, partitions and functions, in exact arithmetic", "why_tests_cant": "quantifies over uncountably many inputs and all weight vectors", "anchors": ["src/basis/fourier.rs", "src/basis/uniform_grid.rs", "src/lib.rsevaluate"]}
{"id": "C101", "title": "Strictly positive definite kernels", "statement": "The exponential, Matern-3/2, squared exponential and (with positive power) rational quadratic kernels with positive variance and a non-zero lengthscale per coordinate are strictly positive definite in every dimension: any combination of finitely many distinct points with weights not all zero has positive quadratic form. With a coordinate not covered by a lengthscale it fails.", "quantifier": "all dimensions, finite sets of distinct points, weights and parameters, in exact arithmetic", "why_tests_cant": "quantifies over all finite point sets in all dimensions", "anchors": ["src/basis/kernels/", "src/basis/kernels/mod.rs"]}
{"id": "C102", "title": "Kernel approximators interpolate at their centroids", "statement": "A kernel approximator with a strictly positive definite kernel and distinct centroids fits arbitrary targets at the centroids with exactly one weight vector. In particular those built by KernelBasis::exp_quad and KernelBasis::matern_32 over non-degenerate partitions have distinct centroids and fit any values at the cell centres exactly once.", "quantifier": "all kernels, centroids, partitions and targets, in exact arithmetic", "why_tests_cant": "quantifies over all centroid sets and targets", "anchors": ["src/basis/kernelised.rs", "src/lib.rsevaluate"]}
{"id": "C103", "title": "Cycling through a finite data set converges (SGD)", "statement": "SGD cycling through N examples, with a learning rate below 2/|phi|^2 for every example, converges geometrically, with a rate that depends only on the inputs and the learning rate, to a training run that repeats with period N, whatever the targets. Along it the residuals of one cycle, weighted by the features, cancel. If some weights fit all targets, the limit is a single weight vector that fits them: the one nearest to the initial weights.", "quantifier": "all bases, data sets, targets, cycle lengths, initial weights and learning rates below the bound, in exact arithmetic", "why_tests_cant": "quantifies over infinite runs and all data sets; the limit is not reached in finitely many steps", "anchors": ["src/optim/sgd.rs", "src/lib.rsupdate_with"]}
{"id": "C104", "title": "Cycling through a finite data set converges (ISGD)", "statement": "As for SGD but with the implicit optimiser and every positive learning rate, however large; the residuals in the balance are weighted by 1/(1 + lr |phi|^2).", "quantifier": "all bases, data sets, targets, cycle lengths, initial weights and positive learning rates, in exact arithmetic", "why_tests_cant": "quantifies over infinite runs and all data sets", "anchors": ["src/optim/isgd.rs", "src/lib.rsupdate_with"]}
{"id": "C105", "title": "Table learning in double precision is monotone and stops", "statement": "Training one cell of a table (a projection with one activation of 1, such as a uniform grid) by SGD towards a fixed target in double precision, with a learning rate between 0 and 1 - 2^-51: every call succeeds, the prediction moves monotonically towards the target and never passes it, no other weight changes, after finitely many calls the approximator no longer changes at all, and then lr times the remaining error is at most 2 units of roundoff of the prediction (plus 2 times the smallest spacing). With learning rate 1 the target can be passed.", "quantifier": "all double-precision targets and initial weights up to 2^1000, all learning rates in the range, all numbers of calls, all grids", "why_tests_cant": "rounding occurs at each of unboundedly many steps; the claim covers all doubles", "anchors": ["src/optim/sgd.rs", "src/basis/uniform_grid.rs", "src/lib.rsupdate_with"]}
{"id": "C106", "title": "What the kernel constructors and kernel features compute", "statement": "non_ard and the defaults of every kernel give the documented closed forms with the parameters in their documented roles; on slices of length one and on numbers the kernels agree when the lengthscale is positive; translating both points, or rescaling points and lengthscales together, changes nothing; the features of a kernel basis are the kernel values between the input and each centroid, in order, and ith gives each of them. With a negative lengthscale the number form and the slice form differ; without a lengthscale the number form panics.", "quantifier": "all kernels, parameters, points, dimensions and centroid lists, in exact arithmetic", "why_tests_cant": "closed forms over all reals", "anchors": ["src/basis/kernels/stationary.rs", "src/basis/kernels/rational_quadratic.rs", "src/basis/kernelised.rs"]}
{"id": "C107", "title": "Lost weights never recover", "statement": "A weight that is NaN stays NaN, and one that is not finite never becomes finite, whatever sequence of step, step_scaled and reset follows, with each of the seven optimisers.", "quantifier": "all optimisers, states, weights and call sequences of any length, in rounded arithmetic with any rounding", "why_tests_cant": "quantifies over unbounded call sequences and non-finite values", "anchors": ["src/optim/sgd.rs", "src/optim/adam.rs"]}
{"id": "C108", "title": "One lost weight spreads to all active weights", "statement": "A prediction in which a non-finite weight takes part is not finite; one training call towards any target then makes every weight of an active feature non-finite, with each of the seven optimisers. With dense features every weight is lost in one call.", "quantifier": "all bases, inputs, targets, optimisers and states, in rounded arithmetic with any rounding", "why_tests_cant": "the claim covers all non-finite values, all summation orders and all optimisers", "anchors": ["src/lib.rsupdate_with", "src/optim/sgd.rs", "src/optim/adam.rs"]}
{"id": "C109", "title": "Predictions on integers are exact in double precision", "statement": "If the activations are integer multiples of one power of two and the weights of another, and the absolute values of all products add up to at most 2^53 units, then the prediction is the exact inner product without rounding, whatever the order of summation.", "quantifier": "all bases, inputs, weights, dimensions and summation orders, all exponents in the stated range", "why_tests_cant": "the set of integer vectors is unbounded in length and beyond enumeration in size", "anchors": ["src/lib.rsevaluate", "src/features.rsFeatures::dot"]}
{"id": "C110", "title": "Counting is exact, independent of order, and saturates in double precision", "statement": "SGD with a power-of-two learning rate and integer scales and activations, from a weight that is a multiple of the learning rate: as long as the magnitudes of the weight and all increments add up to at most 2^53 units, the result is exact, and reordering the calls gives bit-for-bit the same weight. A weight of 2^53 with learning rate 1 no longer changes when incremented by 1, however often.", "quantifier": "all call sequences of any length, all orders, all weights and exponents in the stated range", "why_tests_cant": "quantifies over unbounded call sequences and all permutations", "anchors": ["src/optim/sgd.rs"]}
{"id": "C111", "title": "What feature discovery adds, and when", "statement": "discover succeeds on every accepted input. Features keep their index, the first dim ones are those of the inner basis, existing ones never change, every new one is the conjunction of exactly two features of the inner basis, and the returned entries are exactly the added ones. The number of features that are the conjunction of a given pair is the number of times the absolute errors of the calls that inspect both reach the threshold, counting afresh each time; in exact arithmetic the pair is discovered exactly when these errors sum to the threshold or more.", "quantifier": "all inner bases, thresholds and sequences of discover calls of any length; bookkeeping in any arithmetic", "why_tests_cant": "unbounded call sequences; the accounts of all pairs evolve together", "anchors": ["src/basis/ifdd.rs"]}
{"id": "C112", "title": "A conjunction is discovered at most once", "statement": "After any sequence of discover calls no two features are the conjunction of the same pair of features.", "quantifier": "all inner bases, thresholds and sequences of discover calls", "why_tests_cant": "unbounded call sequences", "anchors": ["src/basis/ifdd.rs"]}
{"id": "C113", "title": "Discovery counts the calls in which both features are active", "statement": "The errors credited to a pair of features are those of the calls in whose projection both features are active.", "quantifier": "all inner bases and sequences of discover calls", "why_tests_cant": "unbounded call sequences, dense and sparse projections", "anchors": ["src/basis/ifdd.rs"]}
{"id": "C114", "title": "A discovered feature is active exactly when all its parents are", "statement": "Projecting with discovered features activates exactly the conjunctions all of whose parents are active, switches these parents off and leaves the others as the inner basis gives them.", "quantifier": "all inner bases, discovered features and inputs", "why_tests_cant": "quantifies over all reachable sets of discovered features", "anchors": ["src/basis/ifdd.rs"]}
{"id": "C115", "title": "When Momentum converges on a repeated input", "statement": "Repeatedly calling update_with on one input with error y - prediction, from any weights and a fresh Momentum optimiser whose first prediction is wrong: the prediction converges to y if and only if |m| < 1 and 0 < lr |phi|^2 < 2 (1 + m). The weights then converge to the nearest ones that predict y. A right first prediction stays right.", "quantifier": "all bases, inputs, targets, weights, learning rates and momenta; infinite runs in exact arithmetic", "why_tests_cant": "convergence of infinite runs, with an exact boundary in a continuum of settings", "anchors": ["src/optim/momentum.rs", "src/lib.rs"]}
{"id": "C116", "title": "Where NAG settles on a repeated input", "statement": "On one repeated input a fresh NAG optimiser drives the prediction to y + m (1 - m) / lr whenever |m| < 1 and 0 < lr |phi|^2 < 2 (1 + m). For every momentum other than 0 and 1, every learning rate and every start, it never converges to the target y on an input with non-zero features.", "quantifier": "all bases, inputs, targets, weights, learning rates and momenta; infinite runs in exact arithmetic", "why_tests_cant": "convergence of infinite runs", "anchors": ["src/optim/nesterov.rs", "src/lib.rs"]}
{"id": "C117", "title": "Adagrad converges on a repeated input for every learning rate", "statement": "On one repeated input whose features are not all zero, a fresh Adagrad optimiser with any positive learning rate, however large, drives the prediction to the target from any weights.", "quantifier": "all bases, inputs, targets, weights and positive learning rates; infinite runs in exact arithmetic", "why_tests_cant": "convergence of infinite runs without any bound on the learning rate", "anchors": ["src/optim/adagrad.rs", "src/lib.rs"]}
{"id": "C118", "title": "Squared exponential kernel approximators are universal", "statement": "With a non-zero variance and a non-zero lengthscale per coordinate, for every continuous function on a compact set of any dimension and every eps > 0 there are centroids and weights whose evaluations are within eps everywhere on the set. With a single lengthscale (non_ard) in two dimensions predictions ignore the second coordinate, and over the cosine kernel predictions in one dimension are periodic.", "quantifier": "all dimensions, compact sets, continuous functions, accuracies and kernel parameters, in exact arithmetic", "why_tests_cant": "quantifies over all continuous functions", "anchors": ["src/basis/kernelised.rs", "src/basis/kernels/stationary.rs"]}
{"id": "C119", "title": "Uniform grids approximate continuous functions", "statement": "If a function varies by at most eps between points of the box that are at most a cell width apart in each coordinate, some weights make the grid's evaluation agree with it to within eps on the whole box. So every continuous function is approximated to any accuracy by every sufficiently fine grid.", "quantifier": "all dimensions, boxes, partition counts, functions and accuracies, in exact arithmetic", "why_tests_cant": "quantifies over all functions on a continuum", "anchors": ["src/basis/uniform_grid.rs"]}
{"id": "C120", "title": "Training a kernel approximator finds the interpolant", "statement": "An approximator over exponential, Matern-3/2 or squared exponential kernels centred at N distinct points and trained by cycling through these points converges geometrically to the one weight vector that reproduces the targets, for SGD when lr N v^2 < 2 and for ISGD with every positive learning rate; the rate depends neither on the targets nor on the initial weights.", "quantifier": "all kernel parameters, dimensions, sets of points, targets and initial weights; infinite runs in exact arithmetic", "why_tests_cant": "convergence of infinite runs to a solution that has no closed form", "anchors": ["src/basis/kernelised.rs", "src/optim/sgd.rs", "src/optim/isgd.rs", "src/lib.rs"]}
{"id": "C121", "title": "In-place operations keep values valid", "statement": "map_inplace and merge_inplace leave valid features in the caller's variable, whether they return or the closure or an index check panics, and destroy only valid values.", "quantifier": "all features, all closures and all points at which a closure panics", "why_tests_cant": "memory validity on unwinding paths is not observable from an assertion, and the closures range over all functions", "anchors": ["src/features.rs"]}
{"id": "C122", "title": "Merging never reads uninitialised memory", "statement": "merge and merge_into of two features, including the path that allocates an uninitialised array and later declares it initialised, never read a cell that was not written, for every closure and wherever it panics; with a closure that returns they hold exactly the merged activations.", "quantifier": "all pairs of features with any dimensions and stored indices, all closures including those that panic", "why_tests_cant": "undefined behaviour is invisible to assertions; sizes and panic points are unbounded", "anchors": ["src/features.rs"]}
{"id": "C123", "title": "The unchecked read of the L0 normaliser stays in bounds", "statement": "ith of an L0-normalised basis never reads past the end of an array, for every basis, input and index.", "quantifier": "all bases, inputs and indices", "why_tests_cant": "an out-of-bounds read is undefined behaviour, not a failing assertion; the bases range over all closures", "anchors": ["src/basis/normalisation.rs", "src/features.rs"]}
{"id": "C124", "title": "A stack is its parts side by side", "statement": "The prediction over a stacked basis is the sum of the predictions of its parts with the weights split between them. Training a stack with SGD, Momentum, NAG or Adagrad on any sequence of inputs and errors gives the weights of the two parts trained separately with the same errors. ISGD couples the parts: each moves as by SGD with the rate that the norm of the whole feature vector gives.", "quantifier": "all pairs of bases, inputs, weights, optimiser states and finite training runs, in exact arithmetic", "why_tests_cant": "training runs and bases are unbounded", "anchors": ["src/basis/stack.rs", "src/optim/*.rs", "src/lib.rs"]}
{"id": "C125", "title": "Polynomial approximators are universal up to the constant", "statement": "For every continuous function on a compact set of any dimension and every eps > 0, some order and some weights of a polynomial basis with with_zeroth give evaluations within eps everywhere on the set. Without the constant feature this holds for exactly the continuous functions that vanish at the origin, or that live on a set without the origin.", "quantifier": "all dimensions, compact sets, continuous functions and accuracies, in exact arithmetic", "why_tests_cant": "quantifies over all continuous functions", "anchors": ["src/basis/polynomial/mod.rs"]}
{"id": "C126", "title": "What Fourier approximators over one input represent", "statement": "Over one input with limits lo < hi, Fourier approximators with a bias come within any eps > 0 of any continuous function on the limits. Without a bias this holds for exactly the continuous functions whose integral over the limits is 0.", "quantifier": "all limits, continuous functions and accuracies, in exact arithmetic", "why_tests_cant": "quantifies over all continuous functions", "anchors": ["src/basis/fourier.rs", "src/basis/stack.rs"]}
{"id": "C127", "title": "How often a prediction can change sign", "statement": "Along any coordinate, predictions of polynomial and Chebyshev approximators of order p, and of one-input Fourier approximators inside their limits, are not alternately positive and negative at more than p + 1 increasing points, whatever the weights; p + 1 points are reached. Hence Chebyshev approximators, whose order is at most 11, are not universal: on every box some continuous function with values in [-1, 1] is approximated by none of them better than by the constant prediction 0.", "quantifier": "all orders, dimensions, limits, weights, base points, coordinates and increasing point sequences, in exact arithmetic", "why_tests_cant": "quantifies over all weights and all point sequences", "anchors": ["src/basis/polynomial/mod.rs", "src/basis/fourier.rs"]}
{"id": "C128", "title": "Mean weights follow the mean targets", "statement": "Training with SGD, ISGD, Momentum or NAG on fixed inputs and integrable random targets: the expectation of every weight and of every prediction, after any number of calls, equals the weight and the prediction of a second approximator trained on the expected targets.", "quantifier": "all probability spaces, integrable targets of any joint law, bases, inputs, starting weights and velocities, hyper-parameters and step counts, in exact arithmetic", "why_tests_cant": "ranges over probability distributions of whole training runs", "anchors": ["src/lib.rs", "src/optim/sgd.rs", "src/optim/isgd.rs", "src/optim/momentum.rs", "src/optim/nesterov.rs"]}
{"id": "C129", "title": "Error that noisy targets leave on a repeated input", "statement": "Training SGD or ISGD on one input whose target carries uncorrelated zero-mean noise of variance s\u00b2: with a = rate times squared feature norm, the mean squared error of the k-th prediction is (1-a)^2k times the initial one plus s\u00b2 times the sum over j < k of (a (1-a)^j)\u00b2. For 0 < a < 2 it converges to a/(2-a) s\u00b2; for ISGD that limit is below s\u00b2.", "quantifier": "all probability spaces, uncorrelated noise of any law, bases, inputs, weights, rates and step counts, in exact arithmetic", "why_tests_cant": "concerns expectations and limits of unbounded runs", "anchors": ["src/lib.rs", "src/optim/sgd.rs", "src/optim/isgd.rs"]}
{"id": "C130", "title": "What one noisy call adds to the distance from any weights", "statement": "One call of SGD or ISGD with a target disturbed by zero-mean noise of variance s\u00b2: the expected squared distance of the weights from any reference exceeds that after the undisturbed call by exactly rate\u00b2 s\u00b2 times the squared norm of the features.", "quantifier": "all probability spaces, noise laws, bases, inputs, weights, references and rates, in exact arithmetic", "why_tests_cant": "ranges over probability distributions", "anchors": ["src/lib.rs", "src/optim/sgd.rs", "src/optim/isgd.rs"]}
{"id": "C131", "title": "The example of the documentation misses its own assertion", "statement": "In the example of the crate documentation (order-1 polynomial with constant, SGD with rate 1, Gaussian noise of deviation 0.01) the final assertion that the weights are within 1e-3 of the true ones holds with probability at most 0.08, whatever the number of calls, the distribution of the inputs and the true line.", "quantifier": "all numbers of calls, input distributions, true coefficients and earlier states, in exact arithmetic", "why_tests_cant": "quantifies over probability distributions; the example is marked no_run and sampled runs only estimate it", "anchors": ["src/lib.rs", "src/optim/sgd.rs", "src/basis/polynomial/mod.rs"]}
{"id": "C132", "title": "Mean weights under random sampling", "statement": "Training SGD or ISGD on inputs drawn independently and uniformly from a data set: the average of the weights over all draw sequences converges geometrically to a least-squares solution of the data, namely the one nearest the starting weights. For SGD when the rate times the squared feature norm is below 2; for ISGD at every positive rate, with squares weighted by 1/(1 + rate times squared norm).", "quantifier": "all data sets, bases, starting weights and rates, in exact arithmetic", "why_tests_cant": "averages over exponentially many training runs and takes a limit", "anchors": ["src/lib.rs", "src/optim/sgd.rs", "src/optim/isgd.rs"]}
{"id": "C133", "title": "What random sampling leaves in the mean square", "statement": "Training SGD or ISGD on inputs drawn independently and uniformly from a data set: the mean squared distance of the weights from the solution C132 names approaches a band of positive width determined by the residuals, and it tends to 0 exactly when some weights fit the data exactly.", "quantifier": "all data sets, bases, starting weights and rates as in C132, in exact arithmetic", "why_tests_cant": "averages over exponentially many training runs and takes a limit", "anchors": ["src/lib.rs", "src/optim/sgd.rs", "src/optim/isgd.rs"]}
{"id": "C134", "title": "A saved approximator is restored exactly", "statement": "Serialising features, an error, an optimiser with its state, a basis or a whole approximator and deserialising it gives back an equal value, whether the format stores fields by position or by name, in any field order.", "quantifier": "all types of the crate, nestings of bases, optimiser states, weights and formats, in any arithmetic", "why_tests_cant": "ranges over every value of every type and over all serde formats", "anchors": ["src/lib.rs", "src/features.rs", "src/optim/mod.rs", "src/basis/mod.rs", "src/basis/polynomial/mod.rs"]}
{"id": "C135", "title": "Restoring rejects what constructors cannot build", "statement": "Deserialising arbitrary data never panics, and succeeds only with values that the constructors of the crate can produce.", "quantifier": "all serialised data and all types of the crate", "why_tests_cant": "ranges over arbitrary untrusted data", "anchors": ["src/features.rs", "src/basis/polynomial/mod.rs", "src/optim/mod.rs", "src/lib.rs"]}
{"id": "C136", "title": "The text of an index error names both numbers", "statement": "The message of the error that ith returns for an index out of range determines the index and the number of features: messages for different indices or dimensions differ, for every basis. Displaying an error prints the message and one line feed, and the message itself is a single line.", "quantifier": "all indices and dimensions, and all nestings of bases as in C19", "why_tests_cant": "needs injectivity over unboundedly many pairs of numbers", "anchors": ["src/error.rs: Error::index_error, Display, description", "src/basis/mod.rs"]}
{"id": "C137", "title": "card is the number of projections", "statement": "card() of a basis is the number of different projections it can produce over all inputs.", "quantifier": "all nestings of the bases of the crate and all inputs", "why_tests_cant": "counts the projections of unboundedly many inputs", "anchors": ["src/basis/constant.rs", "src/basis/tile_coding.rs", "src/basis/uniform_grid.rs", "src/basis/stack.rs", "src/basis/polynomial/mod.rs", "src/basis/fourier.rs", "src/basis/normalisation.rs"]}
{"id": "C138", "title": "Which features tile coding shares between inputs", "statement": "When the hasher has no collisions, two inputs share the feature of a tiling exactly when they lie in the same tile of that tiling and of every earlier one. Inputs in the adjacent cells c and c + 1 of one coordinate (c >= 0) differ in the tile of a single tiling but share only n - 1 - (c mod n) of n features, and training SGD at one with error e moves the prediction at the other by rate times e times that number.", "quantifier": "all numbers of tilings, memory sizes, inputs without overflow, weights, rates and errors; hashers without collisions on the two inputs, which exist", "why_tests_cant": "ranges over all hashers and positions; a test fixes one hasher", "anchors": ["src/basis/tile_coding.rs: hash_state", "src/lib.rs", "src/optim/sgd.rs"]}
{"id": "C139", "title": "The memory layout of an array does not matter", "statement": "Features and errors given as owned arrays in any memory layout (reversed with invert_axis, cut with slice_move) behave as their elements in logical order: turning dense features into a Vec gives the elements, stacking two dense features concatenates their elements, and update_with of a vector approximator moves output i by the i-th error that the closure returns.", "quantifier": "all buffers, offsets, lengths and strides of valid arrays, all features, approximators, optimisers and closures", "why_tests_cant": "a test builds its arrays from literals, which are always in standard layout", "anchors": ["src/features.rs: Features::stack, From<Features> for Vec<f64>, into_dense", "src/lib.rs: VectorLFA::update_with"]}
{"id": "C140", "title": "A run can be repeated exactly", "statement": "Training an approximator twice with the same sequence of calls gives exactly the same weights and optimiser, although each HashMap behind sparse features has its own iteration order: in every arithmetic, for update and update_with, and for every optimiser.", "quantifier": "all bases, optimisers, sequences of calls and iteration orders of every projection, in exact and in floating-point arithmetic", "why_tests_cant": "RandomState picks one order per run; no test enumerates the orders of all calls", "anchors": ["src/features.rs: SparseActivations, Features::dot_sparse, Features::fold", "src/optim/isgd.rs: compute_lr", "src/optim/adam.rs", "src/lib.rs: ScalarLFA::update, update_with"]}
{"id": "C141", "title": "Bootstrapped targets on one repeated transition", "statement": "Training an input x towards r + \u03b3\u00b7evaluate(x') with update_with, again and again, multiplies the error of the transition by 1 - a(\u2016\u03c6(x)\u2016\u00b2 - \u03b3\u27e8\u03c6(x),\u03c6(x')\u27e9) per call, where a is the step size (lr for SGD, lr/(1+lr\u2016\u03c6\u2016\u00b2) for ISGD). So the error vanishes exactly when that factor is inside (-1,1), and when \u2016\u03c6(x)\u2016\u00b2 < \u03b3\u27e8\u03c6(x),\u03c6(x')\u27e9 it grows without bound for every learning rate, with ISGD too.", "quantifier": "all bases, transitions, rewards, \u03b3, learning rates, initial weights and numbers of calls", "why_tests_cant": "limits over infinitely many calls, for all bases and learning rates", "anchors": ["src/lib.rs: ScalarLFA::evaluate, update_with", "src/optim/sgd.rs", "src/optim/isgd.rs"]}
{"id": "C142", "title": "Bootstrapped learning of a table converges", "statement": "On a uniform grid, training towards r + \u03b3\u00b7evaluate(x') with 0 \u2264 \u03b3 < 1 and SGD (0 < lr \u2264 1) or ISGD (any lr > 0) makes every prediction converge to the values that satisfy all transitions, from any weights and in any order of transitions, as long as the cells that transitions lead to are trained again and again.", "quantifier": "all grids, transitions consistent with some values, endless sequences of them, initial weights", "why_tests_cant": "infinitely many calls in arbitrary order", "anchors": ["src/lib.rs: ScalarLFA::evaluate, update_with", "src/basis/uniform_grid.rs", "src/optim/sgd.rs", "src/optim/isgd.rs"]}
{"id": "C143", "title": "Bootstrapped learning on random transitions of closed trajectories", "statement": "If the transitions of closed trajectories are drawn at random and lr\u2016\u03c6\u2016\u00b2(1+\u03b3)\u00b2 < 2(1-\u03b3), then for every basis the mean weights under SGD converge geometrically to weights at which the errors cancel along every feature, all such weights give the same predictions, and the mean squared distance falls to a level set by the errors that remain.", "quantifier": "all bases, finite sets of transitions that leave every state as often as they enter it, rewards, initial weights, numbers of draws", "why_tests_cant": "expectations over all sequences of draws, of every length", "anchors": ["src/lib.rs: ScalarLFA::evaluate, update_with", "src/optim/sgd.rs"]}
{"id": "C144", "title": "How good bootstrapped predictions are", "statement": "The predictions at the weights that random transitions of closed trajectories lead to have a squared error, against the exact values, of at most 1/(1-\u03b3\u00b2) times that of the best weights; the exact values exist and are unique for 0 \u2264 \u03b3 < 1.", "quantifier": "all bases, closed trajectories, rewards, \u03b3 and comparison weights", "why_tests_cant": "quantifies over all weights a basis can have", "anchors": ["src/lib.rs: ScalarLFA::evaluate, update_with"]}
{"id": "C145", "title": "Following a closed trajectory in order converges", "statement": "For every basis, closed set of transitions and 0 \u2264 \u03b3 < 1 there is a positive bound on the learning rate below which SGD with targets r + \u03b3\u00b7evaluate(x'), following the transitions in order for ever, approaches a repeating run geometrically, whatever the rewards and initial weights; if the basis can satisfy all transitions exactly, the predictions converge to those values.", "quantifier": "all bases, closed sets of transitions in any order, rewards, initial weights, numbers of calls", "why_tests_cant": "limits over infinitely many calls, for all small learning rates", "anchors": ["src/lib.rs: ScalarLFA::evaluate, update_with", "src/optim/sgd.rs"]}
{"id": "C146", "title": "A panicking update loses nothing", "statement": "If update or update_with panics and the caller catches the panic, the weights and the optimiser are what they were before the call, whatever panicked: the basis, the closure or the step.", "quantifier": "all bases, optimisers, weights, features, errors, closures and points at which they panic; scalar and vector approximators", "why_tests_cant": "every interleaving of partial effects and panics, for every hash order", "anchors": ["src/lib.rs: ScalarLFA::update, update_with; VectorLFA::update", "src/features.rs: Features::scaled_addto", "src/optim/sgd.rs", "src/optim/isgd.rs", "src/optim/momentum.rs", "src/optim/nesterov.rs", "src/optim/adagrad.rs", "src/optim/adam.rs", "src/optim/adamax.rs"]}
{"id": "C147", "title": "Training is linear in targets and initial weights", "statement": "For SGD, ISGD and SGDMomentum, a run of update_with on the targets a*y1 + c*y2, started from the weights a*w1 + c*w2, has at every moment the weights and predictions that the two separate runs have, combined in the same way. So changing the unit of the targets changes only the unit of the predictions, and the influence of the initial weights does not depend on the targets. NAG keeps this only for a + c = 1; Adagrad, Adam and AdaMax do not have it.", "quantifier": "all bases, hyperparameters, coefficients, infinite sequences of inputs and targets, and initial weights; real arithmetic", "why_tests_cant": "three infinite executions with arbitrary real data compared at every step", "anchors": ["src/lib.rs: ScalarLFA::update_with, evaluate", "src/optim/sgd.rs", "src/optim/isgd.rs", "src/optim/momentum.rs", "src/optim/nesterov.rs"]}
{"id": "C148", "title": "Predictions see a basis only through inner products", "statement": "Two approximators over different bases, trained from zero weights on the same data with SGD, ISGD, SGDMomentum or NAG, make the same predictions forever if the bases have the same inner products of features at the inputs used; the number of features and the representation do not matter. Adagrad, Adam and AdaMax do depend on the coordinates.", "quantifier": "all pairs of bases of any sizes, hyperparameters, infinite sequences of inputs and targets; real arithmetic", "why_tests_cant": "a simulation between two infinite executions with different numbers of weights", "anchors": ["src/lib.rs: ScalarLFA::update_with, evaluate", "src/optim/sgd.rs", "src/optim/isgd.rs", "src/optim/momentum.rs", "src/optim/nesterov.rs", "src/optim/adagrad.rs"]}
{"id": "C149", "title": "The numbering of features does not matter", "statement": "If two bases compute the same features in a different order, dense or sparse, then approximators trained on the same data with the same optimiser hold the same weights in the corresponding order and make the same predictions forever, for every one of the seven optimisers. In particular the order in which two bases are stacked does not matter.", "quantifier": "all bases, renumberings, optimisers, hyperparameters, infinite sequences of inputs and targets, and initial weights; real arithmetic", "why_tests_cant": "every permutation of any number of features along infinite executions", "anchors": ["src/lib.rs: ScalarLFA::update_with, evaluate", "src/basis/stack.rs", "src/optim/sgd.rs", "src/optim/isgd.rs", "src/optim/momentum.rs", "src/optim/nesterov.rs", "src/optim/adagrad.rs", "src/optim/adam.rs", "src/optim/adamax.rs"]}
{"id": "C150", "title": "A vector approximator is a family of scalar approximators", "statement": "With SGD or ISGD, each output of a vector approximator trained with update_with towards a list of targets is at every moment exactly (weights and predictions) the scalar approximator trained towards the targets of that output, and every family of scalar approximators over one basis is such a vector approximator: in exact arithmetic always, and in any arithmetic for sparse features or a single output. With dense features and several outputs f64 adds up in another order; predictions from equal weights agree for up to seven features, may differ from eight on, and then stay within twice the rounding bound of C93. Hence the convergence results for scalar training hold for all outputs at once.", "quantifier": "all bases, numbers of outputs, learning rates, infinite sequences of inputs and target lists, and initial weights; any arithmetic or exact arithmetic for the equivalence as stated, real arithmetic for convergence", "why_tests_cant": "an equivalence of infinite executions for any number of outputs, with errors that feed back through the predictions", "anchors": ["src/lib.rs: VectorLFA::update_with, evaluate; ScalarLFA::update_with, evaluate", "src/features.rs: Features::matmul", "src/optim/sgd.rs", "src/optim/isgd.rs"]}
{"id": "C151", "title": "Adam and AdaMax without momentum hover around the target", "statement": "Adam and AdaMax with beta1 = 0, trained with update_with on one input and one target for ever, end up with errors of at most lr*||phi||_1/sqrt(1-beta2) (AdaMax: lr*||phi||_1) and stay there. Unless some prediction is exactly on target, the error exceeds every delta with sum_i lr*phi_i^2/(delta*|phi_i|+1e-7) > 2 infinitely often: a constant learning rate does not converge. They do converge to the target from every start if lr*||phi||^2 < 2e-7.", "quantifier": "all bases, inputs, non-zero feature vectors, targets, positive learning rates, beta2 in [0,1), initial weights, and infinite runs; real arithmetic", "why_tests_cant": "an eventual bound and an infinitely-often lower bound on infinite runs of a non-linear recurrence", "anchors": ["src/lib.rs: ScalarLFA::update_with, evaluate", "src/optim/adam.rs: Adam::step", "src/optim/adamax.rs: AdaMax::step"]}
{"id": "C152", "title": "One velocity for all outputs: when Momentum still learns", "statement": "A vector approximator with Momentum shares one velocity between its outputs. Trained with update_with on one input towards a list of targets, all predictions converge to their targets, for any number of outputs and all initial weights, if 0 < lr*||phi||^2 < 2(1-|momentum|); no larger bound works for all numbers of outputs. With two outputs convergence from every start holds exactly if lr*||phi||^2 < 2(1-momentum^2), whereas one output only needs lr*||phi||^2 < 2(1+momentum): with momentum 0.9 and learning rate 1 on a unit feature one output learns and two do not.", "quantifier": "all bases, inputs, feature vectors, numbers of outputs, targets, momenta, learning rates, initial weights, and infinite runs; real arithmetic", "why_tests_cant": "stability of an infinite run of any number of coupled outputs, with an exact threshold", "anchors": ["src/lib.rs: VectorLFA::update_with, evaluate", "src/optim/momentum.rs: SGDMomentum::step"]}
{"id": "C153", "title": "One accumulator for all outputs: Adagrad still learns with every rate", "statement": "A vector approximator with Adagrad shares one accumulator between its outputs, which are stepped in turn. Trained with update_with on one input whose features are not all zero, all predictions converge to their targets, for any number of outputs, every positive learning rate and all initial weights. The outputs slow each other down: the first call divides the step of output j by the root of the summed squared errors of outputs 0 to j.", "quantifier": "all bases, inputs, feature vectors, numbers of outputs, targets, positive learning rates, initial weights, and infinite runs; real arithmetic", "why_tests_cant": "convergence of infinite runs of any number of coupled outputs with no bound on the learning rate", "anchors": ["src/lib.rs: VectorLFA::update_with, evaluate", "src/optim/adagrad.rs: Adagrad::step"]}
{"id": "C154", "title": "Momentum learns from any sequence of inputs, within a bound that idle calls lower", "statement": "Momentum (0 <= momentum < 1) trained with update_with on any sequence of inputs whose targets some weights predict exactly learns them: if lr * |phi|^2 * (1 + momentum) < 2 * (1 - momentum)^2 for all inputs, the errors before each call are square-summable with an explicit bound and tend to zero. The bound 2 * (1 + momentum) that is exact for one repeated input is not enough: with r calls between any two at inputs whose features are all zero, the input is learnt exactly if lr * |phi|^2 * (1 - momentum^(r+1)) < 2 * (1 - momentum) * (1 + momentum^(r+1)), since idle calls still move the weights. With momentum 0.9 and lr * |phi|^2 = 3 the input alone is learnt, and diverges if every other call is idle.", "quantifier": "all bases, sequences of inputs and realisable targets, momenta, learning rates, initial weights and numbers of idle calls; real arithmetic", "why_tests_cant": "convergence of infinite runs on arbitrary input sequences, and a rate that works in a test on one input fails on a mixture", "anchors": ["src/lib.rs: ScalarLFA::update_with", "src/optim/momentum.rs: SGDMomentum::step"]}
{"id": "C155", "title": "Index arithmetic does not overflow, and build profiles agree", "statement": "As long as the number of features is below 2^64, stacking features or bases, building features from indices, and building or projecting uniform grids never overflow, with or without overflow checks. Beyond that a debug build panics and a release build returns a feature vector shorter than each part. Tile coding in a release build never panics, on any input including NaN and infinities; its active features are those of tiles computed modulo 2^64, and it agrees with the debug build wherever that does not panic.", "quantifier": "all feature vectors, bases, grids, numbers of tilings, hashers and inputs, both build profiles; any scalars", "why_tests_cant": "all sizes up to 2^64, which no test can allocate or reach, and tests run in one profile only", "anchors": ["src/features.rs: Features::stack, From<SparseActivations>, From<Vec<IndexT>>", "src/basis/stack.rs: Stack::dim, project, ith", "src/basis/uniform_grid.rs: UniformGrid::new, hash", "src/basis/tile_coding.rs: hash_state"]}
{"id": "C156", "title": "Error that noisy targets leave with Momentum", "statement": "When Momentum is trained on one repeated input with noisy targets (zero mean, pairwise uncorrelated, equal variance), the mean squared error of the prediction after k calls is an explicit sum, and with a = lr*|phi|^2 below 2 (1 + momentum) it tends to a (1 + momentum) / ((1 - momentum) (2 (1 + momentum) - a)) times the variance. For positive momentum this is less than SGD with rate lr / (1 - momentum) leaves, and more than SGD with the same rate leaves exactly if a < 1 + momentum.", "quantifier": "all bases, inputs, initial weights, learning rates, momenta with absolute value below 1, noise processes and numbers of calls; real arithmetic", "why_tests_cant": "a limit over unboundedly many calls of an expectation over all noise", "anchors": ["src/optim/momentum.rs: SGDMomentum::step", "src/lib.rs: ScalarLFA::update_with"]}
{"id": "C157", "title": "Training in double precision follows training in exact arithmetic", "statement": "Train two approximators with SGD on the same examples from the same weights, one in double precision and one in exact arithmetic. As long as lr*|phi|^2 <= 2 for every example and the double-precision weights stay finite, the distance of the two weight vectors after any number of calls is at most the sum of the rounding errors of the single calls, each at most ((4k+1) W + 10 E) 2^-53 + (4k + 2 sqrt n + 2) 2^-1075 for k <= 2^52 active features of length at most 1, weights of length at most W, errors at most E and a rate in [0, 2]. Predictions differ accordingly. On one repeated input with |1 - lr*|phi|^2| = r < 1 the exact inner product comes as close to the target as r^T times its initial distance plus |phi| times the rounding error per call divided by 1 - r.", "quantifier": "all bases, sequences of inputs and targets, initial weights, learning rates, numbers of features and calls, and orders of summation; binary64 rounding with subnormals and overflow", "why_tests_cant": "a statement about every history of calls in floating point and its exact counterpart, which a test cannot compute", "anchors": ["src/optim/sgd.rs: SGD::step_scaled", "src/lib.rs: ScalarLFA::update_with"]}
{"id": "C158", "title": "Which learning rates reach the target", "statement": "Set the rate before every call (fa.optimiser = SGD(l_k) or ISGD(l_k)) and train on one repeated input and target. The error of the prediction is multiplied by 1 - l_k*|phi|^2 (SGD) or divided by 1 + l_k*|phi|^2 (ISGD). With rates that are not negative, and below 1/|phi|^2 for SGD, the prediction reaches the target exactly when the sum of the rates is infinite.", "quantifier": "all bases, inputs, targets, initial weights and sequences of rates", "why_tests_cant": "an equivalence about infinite runs and all sequences of rates", "anchors": ["src/optim/sgd.rs: SGD", "src/optim/isgd.rs: ISGD", "src/lib.rs: LFA::optimiser", "src/lib.rs: ScalarLFA::update_with"]}
{"id": "C159", "title": "Rates that average the targets", "statement": "With the rate 1/(k*|phi|^2) in the k-th call on a repeated input, the prediction of SGD is the mean of the targets so far whatever the initial weights, and the prediction of ISGD the mean of the targets and the initial prediction. If the targets are independent and identically distributed with a mean, the predictions converge to it with probability one. A uniform grid trained with one over the number of visits to the cell of the input holds in every visited cell the mean of the targets of that cell.", "quantifier": "all bases, inputs, sequences of targets and initial weights; all grids and sequences of inputs; all distributions with a mean", "why_tests_cant": "a statement about all histories and almost sure convergence", "anchors": ["src/optim/sgd.rs: SGD", "src/optim/isgd.rs: ISGD", "src/lib.rs: LFA::optimiser", "src/basis/uniform_grid.rs: UniformGrid"]}
{"id": "C160", "title": "Which learning rates average noise away", "statement": "On one repeated input whose targets carry uncorrelated noise of positive variance, with non-negative rates set before every call and a wrong initial prediction, the mean square error of the prediction tends to zero exactly when the rates tend to zero and their sum is infinite, for SGD and for ISGD. The mean square error v changes by v' = (1 - a)^2 v + a^2 sigma^2 with a = l_k*|phi|^2.", "quantifier": "all bases, inputs, initial weights, sequences of rates and noise with mean zero", "why_tests_cant": "an equivalence about expectations over infinite runs", "anchors": ["src/optim/sgd.rs: SGD", "src/optim/isgd.rs: ISGD", "src/lib.rs: LFA::optimiser", "src/lib.rs: ScalarLFA::update_with"]}
{"id": "C161", "title": "Training with the implicit rate in double precision follows exact training", "statement": "In double precision the effective rate of ISGD is within (4k+14) 2^-53 of lr/(1 + lr*|phi|^2), relatively, for k <= 2^40 active features, unless the squared norm overflows. Training with ISGD in double precision and in exact arithmetic on the same examples from the same weights, the weight vectors are after any number of calls no further apart than the sum of the errors of the single calls, for features of any length and every rate that is not negative. With features of length at most 1, a rate in (0, 2], weights of length at most W and errors at most E one call adds at most ((4k+1) W + (8k+38) E) 2^-53 + (4k + 2 sqrt n + 2 + E) 2^-1075. On one repeated input ISGD makes bit for bit the run of SGD at the effective rate.", "quantifier": "all bases, streams, rates, initial weights, numbers of calls and orders of summation", "why_tests_cant": "a bound on accumulated rounding over all runs; a test sees single runs", "anchors": ["src/optim/isgd.rs: ISGD", "src/lib.rs: ScalarLFA::update_with", "src/features.rs: Features::fold"]}
{"id": "C162", "title": "Accuracy of L2 normalisation in f64", "statement": "For activations that are finite, at most 2^40 stored and whose squares sum to between 2^-900 and 2^1020, each L2-normalised activation is within (4k+10) 2^-53, relatively, of the exact one (plus 2^-1075), and the squares of the normalised activations sum to 1 within (9k+22) 2^-53, k being the number stored.", "quantifier": "all bases, inputs and activations in that range", "why_tests_cant": "a bound for all inputs of a rounded computation", "anchors": ["src/basis/normalisation.rs: L2Normaliser"]}
{"id": "C163", "title": "Cycling through a data set ends near the best fit", "statement": "An approximator with SGD that goes round and round N examples with arbitrary targets ends, at every point of the cycle, with a squared error on these examples at most 1 + (t/(1-t))^2 times the least squared error that any weights achieve, where t = lr*N*R < 1 and R bounds the squared length of the features. Small learning rates therefore come as near to the best fit as wanted, whatever the targets and the initial weights. ISGD does the same with example k counted 1/(1 + lr*|phi_k|^2) times and t the sum of lr*R/(1 + lr*|phi_k|^2).", "quantifier": "all bases, data sets, targets, orders of the examples, initial weights and learning rates below the bound", "why_tests_cant": "an asymptotic statement over all data sets; tests see finitely many calls on a few of them", "anchors": ["src/lib.rs: ScalarLFA::update_with", "src/optim/sgd.rs: SGD", "src/optim/isgd.rs: ISGD"]}
{"id": "C164", "title": "The mean error while training on random examples", "statement": "When each call of update_with draws one of N examples at random, the expected mean squared error of the approximator, averaged over the first T calls, is at most (e + d/(2*lr*T)) / (1 - lr*R/2), for every T: e is the least mean squared error of any weights, d the squared distance of the initial weights from weights that achieve it, and R bounds the squared length of the features, lr*R < 2. ISGD satisfies the same for every learning rate with examples counted 1/(1 + lr*|phi|^2) times and lr*R/(1 + lr*R) in place of lr*R.", "quantifier": "all bases, data sets, targets, initial weights, stable learning rates and numbers of calls", "why_tests_cant": "an expectation over all sequences of draws, of any length", "anchors": ["src/lib.rs: ScalarLFA::update_with", "src/optim/sgd.rs: SGD", "src/optim/isgd.rs: ISGD"]}
{"id": "C165", "title": "The sign of a zero never matters", "statement": "Call two f64 alike if they compare equal or are both NaN. Alike inputs, errors, weights, optimiser states and basis parameters give alike features, alike predictions, the same Ok/Err/panic and alike approximators after any number of updates, for every optimiser, every shipped basis except incremental feature discovery, stacks and normalisers, with one or several outputs. In particular it makes no difference whether a zero is 0.0 or -0.0, although 1.0/0.0 and 1.0/-0.0 differ. Excepted are two divisions by a parameter: a Chebyshev or Fourier interval (0.0, -0.0), and a kernel between plain numbers with length scale -0.0; there the sign does matter (Chebyshev, exponential kernel).", "quantifier": "all formats, inputs, weights, optimiser states, bases and lengths of training", "why_tests_cant": "a signed-zero test fixes a few values; the claim is about every place where a division could tell the zeros apart", "anchors": ["src/lib.rs: ScalarLFA", "src/lib.rs: VectorLFA", "src/basis/mod.rs: rescale", "src/basis/normalisation.rs", "src/basis/kernels/stationary.rs", "src/optim/adam.rs: Adam"]}
{"id": "C166", "title": "Optimisers and bases that compare equal behave equally", "statement": "== on every optimiser, on constant, fixed dense, polynomial, Fourier and kernel bases, kernels, tile coding (if it is on the hasher), and on stacks and normalisers of such bases is symmetric and transitive, and a value equals itself exactly when none of its numbers is NaN (fixed sparse bases: C189). Two optimisers are == exactly when all their numbers are == . Approximators whose bases project alike and whose weights and optimisers are == give alike results and stay alike (== or both NaN) through any number of updates with equal examples, whichever optimiser. Bases that are == project every input alike: constant, fixed dense, polynomial, Fourier (unless an interval is (0.0, -0.0)), tile coding, kernel bases, stacks and normalisers. Chebyshev bases that are == project alike too, and == on them is symmetric and transitive if comparing function addresses is, but nothing guarantees that such a basis equals itself.", "quantifier": "all optimisers, bases, their parameters, inputs, weights and lengths of training", "why_tests_cant": "== is not equality of bits (0.0 == -0.0) and says nothing about behaviour by itself; no finite set of pairs shows that it is respected everywhere", "anchors": ["src/optim/adam.rs: Adam", "src/optim/momentum.rs: SGDMomentum", "src/basis/fourier.rs: Fourier", "src/basis/polynomial/mod.rs: Chebyshev", "src/basis/kernelised.rs: KernelBasis", "src/basis/stack.rs: Stack"]}
{"id": "C167", "title": "How far f64 Chebyshev and Fourier features are from the exact ones", "statement": "For inputs within the limits, computed in f64 with any summation order: the Chebyshev polynomial of degree n <= 11 evaluated by the hard-coded formula at a number of [-1, 1] is within 3^n unit roundoffs (2^-53) of T_n; an input rescaled into its limits is within 3.01 unit roundoffs of the exact ratio; a Chebyshev feature with degrees e is within sum over e of (3^n + 8 n^2 + 1) times 2^-52 of the exact product of polynomials; and a Fourier feature with coefficients e over d inputs is within eps + (2 + pi (2d + 6) sum e) unit roundoffs of cos(pi e.u), where eps is the error of the library's cos. Features are listed in the order of the exact ones and none is NaN or infinite.", "quantifier": "all orders up to 11 (Chebyshev) and 255 (Fourier), all dimensions, finite limits and inputs within them, all roundings of all intermediate results", "why_tests_cant": "unit tests compare a few evaluations with a tolerance; they cannot bound the rounding over all inputs and all orders, where cancellation in the high-degree formulas is worst", "anchors": ["src/basis/polynomial/cpfk.rs: t_0 to t_11", "src/basis/polynomial/mod.rs: Chebyshev::make_polynomials", "src/basis/polynomial/mod.rs: Chebyshev::project", "src/basis/fourier.rs: Fourier"]}
{"id": "C168", "title": "Training on features computed in f64 follows training on the exact features", "statement": "Train with SGD in double precision, projecting every input in double precision, and in exact arithmetic with the exact basis, on the same inputs and targets from the same weights. If the features differ by at most delta (Euclidean length), lr*|psi|^2 <= 2 for the exact features psi, and the double-precision weights stay finite, then after any number of calls the two weight vectors are no further apart than the sum over the calls of the rounding error of C157 plus lr*(|y - phi.w| + |psi| |w|)*delta; predictions differ accordingly. For the shipped bases with n features over d inputs and order p, delta is at most sqrt n times p d 2^-52 (polynomial, inputs in [-1, 1]), sqrt n times d (3^p + 8 p^2 + 1) 2^-52 (Chebyshev, p <= 11) and sqrt n times eps + (2 + pi (2d + 6) p d) 2^-53 (Fourier, eps the error of the library's cos), for inputs within the limits.", "quantifier": "all inputs within the limits, targets, weights, learning rates with lr*n <= 2, orders, dimensions and lengths of training", "why_tests_cant": "whether small errors of the features are amplified by feedback through the weights depends on the whole run; a unit test sees one run and no exact reference", "anchors": ["src/lib.rs: ScalarLFA::update_with", "src/optim/sgd.rs: SGD::step_scaled", "src/basis/polynomial/mod.rs: Polynomial, Chebyshev", "src/basis/fourier.rs: Fourier"]}
{"id": "C169", "title": "Kernels in double precision are accurate", "statement": "Evaluated in f64, Exponential, ExpQuad, RationalQuadratic (power between 0 and 2^400), Matern32 and Matern52 (as coded, up to distance 2^200) differ from the exact kernel of the same points by at most the variance times the accuracy of the platform's exp (and ln_1p) plus a small multiple of n * 2^-53, n the number of lengthscales; the error does not grow with the distance, nor, for RationalQuadratic, with the power. The error of Cosine grows linearly with the distance. The same holds on numbers, with a constant number of roundings. Beyond the point where squared distances overflow, both Matern kernels are NaN between finite points, where Exponential and ExpQuad are 0.", "quantifier": "all points, lengthscales, variances and powers in range, every platform exp, ln_1p and cos of given accuracy", "why_tests_cant": "the error bound quantifies over all f64 points and over the platform's elementary functions", "anchors": ["src/basis/kernels/stationary.rs: kernel_stationary", "src/basis/kernels/rational_quadratic.rs: kernel_stationary"]}
{"id": "C170", "title": "Training a kernel approximator in double precision follows the exact training", "statement": "Run SGD with rate lr on a homogeneous kernel basis of n centroids, in f64 and in exact arithmetic, from the same weights, on the same inputs and targets, with lr * n * (variance * peak)^2 at most 2 (peak 10/9 for Matern52 as coded, 1 for the other kernels). As long as the f64 weights are finite, they differ from the exact weights after T calls by at most the sum of the rounding errors of the calls plus, for each call, lr * (error of the prediction + sqrt(n) * variance * peak * length of the weights) * sqrt(n) * (error of one kernel value, C169). This holds for the five stationary kernels (Cosine with inputs within a given distance of the centroids) and for RationalQuadratic.", "quantifier": "all kernels, centroids, lengthscales, variances, streams of inputs and targets, number of calls, and platforms' exp, ln_1p and cos", "why_tests_cant": "rounding of kernel values feeds back into the weights over unboundedly many calls", "anchors": ["src/basis/kernels/stationary.rs: kernel_stationary", "src/basis/kernels/rational_quadratic.rs: kernel_stationary", "src/basis/kernelised.rs: KernelBasis", "src/optim/sgd.rs: SGD::step_scaled"]}
{"id": "C171", "title": "Accuracy of Adagrad in double precision", "statement": "Make T at most 2^40 calls of step and step_scaled on an Adagrad optimiser with rate l, in f64. If the state and a weight are finite after the last call, the state is the sum of the squares of the exact gradients up to the fraction (2T + 10) * 2^-53 and 4T * 2^-1075, and the weight is w0 + sum over t of l * g_t / (sqrt(sum over s <= t of g_s^2) + 1e-7) up to 2^-53 * T * (2|w0| + (5T + 75)|l|) plus T * (8|l| + 6) * 10^7 * 2^-1075, where g_t is the exact product of activation and scale. The same bound holds against a run of the optimiser in exact arithmetic. Finiteness is guaranteed when |l| <= 1, the initial weights are finite and the gradients have magnitude at most 2^484.", "quantifier": "all numbers of calls up to 2^40, all features, scales, rates, initial weights and parameters", "why_tests_cant": "the errors of square, sum, root and quotient accumulate over unboundedly many calls; a test compares a few steps", "anchors": ["src/optim/adagrad.rs: Adagrad::step_scaled"]}
{"id": "C172", "title": "Accuracy of Momentum and NAG in double precision", "statement": "Make T calls of step and step_scaled on a Momentum or NAG optimiser with momentum m in [-1, 1] and rate l, in f64. If a weight is finite after the last call then, with u = 2^-53: after every t <= T calls the velocity is the discounted sum of the exact gradients up to the fraction (1+u)^(2t) - 1 of the discounted sum of their magnitudes, and the weight is the exact one up to the fraction (1+u)^(3T+1) - 1 (Momentum) or (1+u)^(4T+1) - 1 (NAG) of the magnitudes that the exact run adds up; underflow adds a few multiples of T^2 * 2^-1075. The same bounds hold against a run of the optimiser in exact arithmetic. Finiteness is guaranteed when m is in [0, 1), |l| <= 1, the initial weights are finite and activations and gradients have magnitude at most 2^500.", "quantifier": "all numbers of calls, features, scales, rates, momenta, initial weights and parameters", "why_tests_cant": "rounding errors feed back through the velocity over unboundedly many calls", "anchors": ["src/optim/momentum.rs: SGDMomentum::step_scaled", "src/optim/nesterov.rs: NAG::step_scaled"]}
{"id": "C173", "title": "Accuracy of Adam and AdaMax in double precision", "statement": "Feed Adam (or AdaMax) with decay rates of at most 1 - 2^-40 at most 2^40 calls of step and step_scaled. Let every number the run keeps for a weight stay finite (for Adam: the mean square at most 2^980). After T calls the weight differs from the weight that exact arithmetic produces from the same calls by at most (42 T + 24/(1-beta1) + 96/(1-beta2) + 324) 2^-53 times the sum of the magnitudes of the start and of the exact steps (AdaMax: 26 T + 24/(1-beta1) + 84), plus an underflow term. The exact step of a call is the rate times the bias-corrected average of the gradients over the root of the bias-corrected mean square (AdaMax: over the largest discounted gradient) plus 1e-7; calls whose features do not hold the weight leave it alone but decay its averages.", "quantifier": "every machine that rounds like f64, rate, pair of decay rates, sequence of dense and sparse calls, weight and number of calls up to 2^40", "why_tests_cant": "A test compares one run with a second run of the same arithmetic; it cannot bound the error of all runs, and the loss of digits in 1 - beta^t grows with 1/(1-beta), which no fixed test shows.", "anchors": ["src/optim/adam.rs: Adam::step_scaled", "src/optim/adamax.rs: AdaMax::step_scaled"]}
{"id": "C174", "title": "Accuracy of the L0, L1 and Linf normalisations in double precision", "statement": "Normalise finite activations in f64. L0Normaliser (at least one and at most 2^53 active features) and LinfNormaliser (some activation not zero) return for every activation a finite number within 2^-53 of relative error, plus at most 2^-1075, of the activation over the number of active features and over the largest magnitude respectively. L1Normaliser (some activation not zero, magnitudes summing to at most 2^1022, k stored activations) returns finite numbers within (4k + 2) 2^-53 of the activation over the sum of the magnitudes. Representation, dimension and stored indices are kept.", "quantifier": "every machine that rounds like f64, basis, input and finite activations the basis returns, dense or sparse; for L1 up to 2^40 of them", "why_tests_cant": "Tests compare with constants up to a tolerance on a few vectors; that no vector, however scaled or long, is worse than one rounding per activation (or than a constant times its length for L1) is a statement about all of them.", "anchors": ["src/basis/normalisation.rs: L0Normaliser::project", "src/basis/normalisation.rs: L1Normaliser::project", "src/basis/normalisation.rs: LinfNormaliser::project"]}
{"id": "C175", "title": "Training several outputs in double precision follows training in exact arithmetic", "statement": "Train a vector approximator in f64 and another in exact arithmetic from the same weights, with the same learning rate and targets, on features that differ by at most delta (zero if they are the same). With SGD, lr |phi|^2 <= 2 and finite weights of an output, the weights of this output after T calls are no further apart (Euclidean length) than the sum of the rounding errors of its T calls plus what delta adds to each; the prediction of the output differs by at most the length of the features times that, plus the error of computing it. With ISGD and equal features the same holds for every rate and every length. The other outputs do not enter the bound.", "quantifier": "every machine that rounds like f64, basis, number of outputs, output, input and target sequence, number of calls", "why_tests_cant": "evaluate adds the products of a column of the weight matrix in another order than the scalar approximator, so tests of scalar training say nothing; no test covers all runs.", "anchors": ["src/lib.rs: VectorLFA::update_with", "src/lib.rs: VectorLFA::evaluate", "src/optim/sgd.rs: SGD::step_scaled", "src/optim/isgd.rs: ISGD::step_scaled"]}
{"id": "C176", "title": "Momentum and NAG in double precision follow training in exact arithmetic", "statement": "Train a scalar approximator in f64 and another in exact arithmetic from the same weights and velocities, with the same momentum mu in [0, 1), learning rate, features and targets. If lr |phi|^2 (1 + mu) <= 2 (1 - mu)^2 for every input and the f64 weights are finite, the weights after T calls of Momentum are no further apart (Euclidean length) than sqrt(1 + mu) times the sum of the rounding errors of the T calls; the prediction differs by at most the length of the features times that, plus the error of computing it. The same holds for NAG with its own rounding error per call.", "quantifier": "every machine that rounds like f64, basis, number of weights, input and target sequence, admissible momentum and learning rate, number of calls", "why_tests_cant": "the velocities carry every rounding error into all later calls, so errors could grow geometrically; a test sees one run and has no exact run to compare with.", "anchors": ["src/optim/momentum.rs: SGDMomentum::step_scaled", "src/optim/nesterov.rs: NAG::step_scaled", "src/lib.rs: ScalarLFA::update_with", "src/lib.rs: ScalarLFA::evaluate"]}
{"id": "C177", "title": "Training in double precision does not overflow, and an a-priori bound on its distance from exact training", "statement": "Train a scalar approximator with SGD in f64 from weights, features, targets and a learning rate of magnitude at most 2^100, with at most 2^40 weights and at most k <= 2^40 stored features per input, lr |phi|^2 <= 2 and lr |phi| |y| <= D <= 2^200 in every call. For every T with (8k + 11) T <= 2^52, the weights and the prediction after T calls are finite; the weights are within (8k + 11) T 2^-52 (|w0| + T D) + T 2^-799 (Euclidean length) of exact training on the same data; and the prediction is within |phi| times that bound for T + 1 calls, plus 2^-1034. The same holds for ISGD with any nominal rate up to 2^100, with lr / (1 + lr |phi|^2) |phi| |y| <= D, constant 12k + 25 and 2^-499 for 2^-799.", "quantifier": "every machine that rounds like f64, basis, number of weights, input and target sequence, admissible learning rate, number of calls", "why_tests_cant": "overflow and drift over up to 10^13 calls are out of reach of a test, and no test has the exact run to compare with.", "anchors": ["src/optim/sgd.rs: SGD::step_scaled", "src/optim/isgd.rs: ISGD::step_scaled", "src/lib.rs: ScalarLFA::update_with", "src/lib.rs: ScalarLFA::evaluate"]}
{"id": "C178", "title": "Examples in any order: training on a data set that can be fitted converges whenever every example keeps coming back", "statement": "Train a scalar approximator with SGD (lr |phi|^2 < 2 at every example) or ISGD (any positive rate), in exact arithmetic, on a finite set of examples that some weights fit, in any order, with repetitions. All orders share one possible limit, the fitting weights nearest to the initial ones. If every example occurs infinitely often, the weights converge to it. Cut into epochs that each contain every example at least once (reshuffled passes, for instance), the squared distance to it shrinks per epoch by a factor r < 1 that depends only on the inputs and the rate, not on the order, the lengths of the epochs, the targets or the initial weights. If the examples are drawn independently at random, with probabilities per example that sum to infinity over the calls, the weights converge to it with probability one.", "quantifier": "every basis, finite set of inputs, fittable targets, admissible learning rate, initial weights, order of the examples, epochs of any lengths, probability space", "why_tests_cant": "the number of orders is infinite and the statement concerns limits and probability one.", "anchors": ["src/optim/sgd.rs: SGD::step_scaled", "src/optim/isgd.rs: ISGD::step_scaled", "src/lib.rs: ScalarLFA::update_with", "src/lib.rs: ScalarLFA::update"]}
{"id": "C179", "title": "Inputs that are NaN or infinite are accepted, and one of them can ruin an approximator for good", "statement": "In f64, Fourier, polynomial and Chebyshev bases report no input coordinate that is NaN or infinite, and tile coding none that is NaN (kernels: C182). A Fourier basis then returns NaN in every feature, also those that do not depend on the coordinate; a polynomial or Chebyshev feature of positive degree in the coordinate is not finite, and a monomial of degree zero in it is unaffected; tile coding takes NaN for zero. One training call with any optimiser at an input with a non-finite dense feature succeeds, leaves no weight finite, and no later step, step_scaled or reset makes one finite again; with a Fourier basis no later prediction at any input is finite.", "quantifier": "every floating-point system (hence f64), order, limits, input, bad coordinate, initial weights, target, optimiser and state, and all later calls", "why_tests_cant": "silent acceptance shows only long after the bad input, and a test would have to exclude every possible recovery.", "anchors": ["src/basis/fourier.rs: Fourier::project", "src/basis/polynomial/mod.rs: Polynomial::project", "src/basis/polynomial/mod.rs: Chebyshev::project", "src/basis/tile_coding.rs: TileCoding::project", "src/lib.rs: ScalarLFA::update_with"]}
{"id": "C180", "title": "In f64, training on examples that determine the weights stays near the exact fit for ever", "statement": "Take finitely many examples that exact weights v fit and whose features determine the weights, in any order in which every L consecutive calls contain every example. With SGD at a stable rate or ISGD at any rate in f64, on inputs of moderate size, nothing ever overflows: the distance of the weights from v decays geometrically, by a factor (1+r)/2 per L calls, down to a floor of a fixed multiple of 2^-53 times the length of v that does not grow with the number of calls, and every prediction is within the matching distance of its target. Here r below one is the factor by which L exact calls contract, and L k 2^-48 must be small against 1 - r.", "quantifier": "every data set, order, number of calls, initial weights, basis and rate within the size limits, with all sums in any order", "why_tests_cant": "a claim about unboundedly many calls with rounding in each; a slow drift would only show after more calls than any test makes.", "anchors": ["src/lib.rs: ScalarLFA::update", "src/optim/sgd.rs: SGD::step_scaled", "src/optim/isgd.rs: ISGD::step_scaled", "src/features.rs: Features::dot", "src/features.rs: Features::addto"]}
{"id": "C181", "title": "In f64, training on inputs that keep exploring stays near exact training for ever, whatever the targets", "statement": "Let every L consecutive inputs see every direction of the weights, so that L exact calls towards zero shrink the weights by a factor r below one. Then for any targets, noisy or changing, SGD at a stable rate and ISGD at any rate in f64, on inputs of moderate size, never overflow and stay within a fixed distance E of exact training in all calls, where E is a multiple of 2^-53 that depends on L, r, the number of stored features and the sizes of targets and initial weights, but not on the number of calls; predictions differ by at most 3 |phi| E + 2^-1034. If L consecutive inputs satisfy sum lr <phi,u>^2 >= mu |u|^2 and lr |phi|^2 <= 1, then r may be taken as sqrt(1 - mu / L^2).", "quantifier": "every stream of inputs and targets, number of calls, initial weights, basis and rate within the size limits, with all sums in any order", "why_tests_cant": "a bound for unboundedly many calls; a slow accumulation of rounding errors would escape any finite test.", "anchors": ["src/lib.rs: ScalarLFA::update", "src/optim/sgd.rs: SGD::step_scaled", "src/optim/isgd.rs: ISGD::step_scaled", "src/features.rs: Features::dot", "src/features.rs: Features::addto"]}
{"id": "C182", "title": "What kernels do with NaN and infinite inputs in f64", "statement": "In f64, an input coordinate that is NaN and has a lengthscale makes all six kernels NaN. An infinite coordinate (the others not NaN, the centre finite, lengthscales finite and not zero) makes Exponential, ExpQuad and RationalQuadratic of positive power exactly zero, but both Matern kernels, Cosine and RationalQuadratic of power zero NaN, whatever the variance. So the grids exp_quad, matern_32 and matern_52 behave differently: at an infinite input exp_quad predicts 0 from finite weights and an SGD call there changes no weight whatever the target, while one training call on a matern grid, with any of the seven optimisers, leaves no prediction at any input finite, whatever calls of the optimiser follow. No error is reported in any of these cases.", "quantifier": "all points, centres, lengthscales, variances, grids, weights, targets, and all later calls of the optimiser", "why_tests_cant": "a test of one kernel at infinity says nothing of the others, and permanence concerns all later calls.", "anchors": ["src/basis/kernels/stationary.rs: Exponential, Matern32, Matern52, ExpQuad, Cosine", "src/basis/kernels/rational_quadratic.rs: RationalQuadratic", "src/basis/kernelised.rs: KernelBasis", "src/lib.rs: ScalarLFA::update"]}
{"id": "C183", "title": "What normalisation does with activations that are NaN or infinite", "statement": "If a projection stores a NaN, L1 and L2 normalisation make every stored activation NaN, whereas Linf normalisation divides by the largest magnitude among the activations that are not NaN: the NaN stays NaN and the others come out as though it were not there. If no activation is NaN and one is infinite, L1, L2 and Linf all turn the finite activations into zero and the infinite ones into NaN. Representation, dimension and stored indices are kept and no error is reported.", "quantifier": "all bases and inputs, dense and sparse projections with any number of NaN and infinite activations", "why_tests_cant": "NaN handling depends on which of several fold operations meets the NaN and in which position; tests at a few positions do not cover all orders.", "anchors": ["src/basis/normalisation.rs: L1Normaliser::project", "src/basis/normalisation.rs: L2Normaliser::project", "src/basis/normalisation.rs: LinfNormaliser::project"]}
{"id": "C184", "title": "Training several outputs in double precision does not overflow and stays near exact training", "statement": "The bounds of C177, C180 and C181 hold for every output of a vector approximator, although its dot products add up in another order than those of a scalar approximator. With targets, features, rate and initial weights of moderate size, SGD (l |\u03c6|\u00b2 at most 2) and ISGD (any rate): for up to 2^52 / (8k + 11) calls (ISGD: 2^52 / (12k + 25)) no weight or prediction of the output overflows, and both stay within an explicit distance of exact training; on examples that determine the weights and that exact weights fit, every output decays to an explicit distance of its exact fit and stays there for ever; on inputs that keep exploring, every output stays for ever within an explicit distance of exact training, whatever its targets. Only the sizes of the targets of that output enter.", "quantifier": "all bases, dense or sparse, numbers of outputs and weights, orders of examples, targets, and all calls for ever", "why_tests_cant": "f64 rounding over unboundedly many calls, for two summation orders, cannot be settled by running some calls.", "anchors": ["src/lib.rs: VectorLFA::update_with", "src/lib.rs: VectorLFA::evaluate", "src/features.rs: Features::matmul", "src/optim/sgd.rs: SGD", "src/optim/isgd.rs: ISGD"]}
{"id": "C185", "title": "Training from features computed in double precision stays near exact training for ever", "statement": "Let one approximator project its inputs in f64, so that its features are off by at most a fraction \u03c1 of a bound A on their length, and train in f64; let another have the exact features and train exactly from the same initial weights on the same targets. If the inputs keep exploring (L exact calls always contract by r), with L (8k + 11) 2^-50 and 8 L \u03c1 at most 1 - r (for ISGD L (12k + 25) 2^-50 and 8 L Z \u03c1, where l A\u00b2 is at most Z), SGD with l A\u00b2 at most 2 and ISGD with any rate never overflow, whatever the targets of moderate size: for ever, the weights stay within an explicit multiple of (2^-53 + \u03c1) of exact training and the predictions accordingly, for one output or several. Polynomial features of inputs in [-1, 1], Fourier and Chebyshev features within the limits and stationary kernels satisfy this with the errors of C96, C167 and C169.", "quantifier": "all bases, features, inputs, targets and initial weights of moderate size, numbers of outputs, and all calls for ever", "why_tests_cant": "f64 rounding in projections and in unboundedly many updates cannot be settled by running some calls; drift may show only after very many.", "anchors": ["src/lib.rs: ScalarLFA::update_with", "src/lib.rs: VectorLFA::update_with", "src/optim/sgd.rs: SGD", "src/optim/isgd.rs: ISGD", "src/basis/polynomial/mod.rs: Polynomial::project", "src/basis/fourier.rs: Fourier::project", "src/basis/polynomial/mod.rs: Chebyshev::project", "src/basis/kernelised.rs: KernelBasis::project"]}
{"id": "C186", "title": "Q-learning on a table finds the greatest discounted sums of rewards, and greedy actions become optimal", "statement": "Let an approximator have one output for each action over a basis that is a table (each input activates one cell with value 1, as in a uniform grid), and let a deterministic environment with discounts at most \u03b3 < 1 treat inputs of the same cell alike. Each call trains one output by update_index towards the reward plus the discounted greatest of evaluate at the next input. In exact arithmetic, with SGD at a rate of at most 1 or ISGD at any positive rate, from any initial weights and in any order in which every action is taken again and again at the cells reached, the predictions at each input and action that recur converge to the greatest discounted sum of rewards that starts there. When every input and action recurs, from some call on every sequence of greedy actions collects the greatest sum from every input. Calls never fail.", "quantifier": "all table bases, numbers of cells and actions, environments, rewards, discounts, initial weights, orders of visits and learning rates in range, and infinitely many calls", "why_tests_cant": "Convergence over infinitely many calls whose targets depend on the weights being trained, in every order of visits, cannot be observed by finitely many runs.", "anchors": ["src/lib.rs: VectorLFA::update_index", "src/lib.rs: VectorLFA::evaluate", "src/lib.rs: VectorLFA::evaluate_index", "src/optim/sgd.rs: SGD", "src/optim/isgd.rs: ISGD", "src/basis/uniform_grid.rs: UniformGrid::project"]}
{"id": "C187", "title": "Q-learning on a table in double precision stays near the greatest discounted sums for ever, and its greedy actions become nearly optimal", "statement": "Let the approximator, the table and the environment be as in C186, but in f64, with rewards at most (1 - \u03b3) V. With SGD at a rate l of at most 1 such that 32 2^-53 is at most l (1 - \u03b3) (ISGD: rate l at most 2^40, with l / (1 + l) in place of l and 64 and 32 in place of 32 and 16 throughout), and with initial weights within C - V where C is at least (32 2^-53 V + 16 2^-1075) / (l (1 - \u03b3)) and V + C at most 2^1000, every call succeeds for ever, all predictions stay finite and within C of the greatest discounted sums, whatever the order of visits. Predictions at inputs and actions that recur come within (32 2^-53 V + 16 2^-1075) / (l (1 - \u03b3)) + \u03b5 of them, for every \u03b5 > 0, and when all recur the greedy actions eventually collect at least the greatest sum less 2 / (1 - \u03b3) times that.", "quantifier": "all table bases, numbers of cells and actions, environments, rewards, discounts and initial weights in range, orders of visits, and all calls for ever", "why_tests_cant": "Rounding errors of infinitely many calls whose targets depend on earlier rounded results may accumulate; finitely many runs cannot show that they never do.", "anchors": ["src/lib.rs: VectorLFA::update_index", "src/lib.rs: VectorLFA::evaluate", "src/lib.rs: VectorLFA::evaluate_index", "src/optim/sgd.rs: SGD", "src/optim/isgd.rs: ISGD", "src/basis/uniform_grid.rs: UniformGrid::project"]}
{"id": "C188", "title": "Training in double precision is nearly repeatable: runs that differ in the order of hash maps and of sums stay close for ever", "statement": "Take two runs of update_with(x, |_, p| y - p) in f64 with SGD or ISGD over features with the same values, with the same rate, targets and initial weights, under the conditions of C181. The runs may be on two machines that sum arrays in different orders, and each hash map of features may iterate in a new order at every call. For ever, all weights and predictions of both are finite, each weight vector is within the E of C181 of exact training, the two are within 2 E of one another, and whatever the two can predict at an input with the same features \u03c6 differs by at most 6 \u2016\u03c6\u2016 E + 2^-1033.", "quantifier": "all bases, numbers of weights, inputs, targets, rates and initial weights in range, all orders of iteration at each call, all orders of summation, all calls for ever", "why_tests_cant": "The order of a hash map changes from run to run, so a test sees one of very many results; the differences feed back into every later call.", "anchors": ["src/lib.rs: ScalarLFA::update_with", "src/lib.rs: ScalarLFA::evaluate", "src/features.rs: Features::dot", "src/features.rs: Features::scaled_addto", "src/optim/sgd.rs: SGD", "src/optim/isgd.rs: ISGD"]}
{"id": "C189", "title": "Fixed sparse bases are compared by content, and equal ones are interchangeable", "statement": "Fixed::sparse(n, indices) == Fixed::sparse(m, others) exactly when n = m and both sequences name the same indices, whatever their order and repetitions and the order of the hash sets; == is an equivalence. Two such bases are == exactly when they project every input to the same features up to hash order; then their dimensions and single features agree, and updates of approximators over them with the same weights and optimiser (any but ISGD) leave exactly the same weights, in any arithmetic. Their f64 predictions may differ, because the hash order is the order of summation: with the same three weights one of two == bases can predict 0 and the other 1.", "quantifier": "all numbers of features, sequences of indices, hash orders, inputs, weights, optimisers but ISGD and errors", "why_tests_cant": "The iteration order of a hash set is random per value; a test sees one pair of orders.", "anchors": ["src/basis/constant.rs: Fixed::sparse", "src/basis/constant.rs: Fixed::project", "src/basis/constant.rs: Fixed::ith", "src/lib.rs: ScalarLFA::update"]}
{"id": "C190", "title": "Momentum and NAG in f64 stay near exact training for ever, if the inputs keep exploring", "statement": "Take a Momentum or NAG approximator with momentum m in [0, 1), learning rate lr between 2^-100 and 2^100 (1 - m) and lr ||phi||^2 (1 + m) <= 2 (1 - m)^2 in every call, on features, targets and initial weights and velocities of at most 2^100 and any targets, noisy or changing. If from every point on, L calls of exact training with target zero contract the distance of weights and velocities by a factor r with L (12 k + 60) 2^-51 <= 1 - r (k the number of stored features), then for ever no weight, velocity or prediction overflows, and weights, velocities and predictions stay within a fixed distance of exact training on the same stream, of the order of k 2^-53 times the size of the exact run over (1 - r). Such an r exists and can be computed if every L calls together see every direction and lr ||phi||^2 (1 + m)^2 <= (1 - m)^2.", "quantifier": "all bases and streams of inputs and targets within the stated sizes, all L and r, every number of calls, every summation order", "why_tests_cant": "The claim bounds rounding errors after any number of calls, for every stream; a test runs finitely many calls of one stream.", "anchors": ["src/optim/momentum.rs: SGDMomentum::step_scaled", "src/optim/nesterov.rs: NAG::step_scaled", "src/lib.rs: ScalarLFA::update_with", "src/features.rs: Features::dot"]}
{"id": "C191", "title": "Momentum and NAG in f64 are nearly repeatable: runs that differ in hash map and summation order stay close for ever", "statement": "Under the conditions of C190 (momentum m in [0, 1), rates and features and targets within the stated sizes, inputs that keep exploring so that L exact calls contract by a factor r), take two runs of Momentum, or two of NAG, from the same state on the same stream, in f64 on any two machines, over bases whose features have the same values, dense or sparse, where every hash map iterates in its own order at every call. For ever no weight or velocity of either overflows, the weights of the two are within 3 E of one another, E being of the order of L k 2^-53 times the size of the exact run over (1 - r), and what the two predict at any input differs by at most 10 ||phi|| E + 2^-1033.", "quantifier": "all bases and streams of inputs and targets within the stated sizes, all pairs of iteration and summation orders at every call, every number of calls", "why_tests_cant": "The order of a hash map changes from process to process, so a test sees one pair of orders and finitely many calls; the claim covers all orders and unbounded runs.", "anchors": ["src/optim/momentum.rs: SGDMomentum::step_scaled", "src/optim/nesterov.rs: NAG::step_scaled", "src/lib.rs: ScalarLFA::update_with", "src/features.rs: Features::dot"]}
{"id": "C192", "title": "Training in f64 forgets its start and tracks moving targets", "statement": "Under the conditions of C181 (SGD, ISGD) or C190 (Momentum, NAG), with every hash map iterating in any order at every call: (a) for any moving reference weights that drift by at most delta in a call and miss the target by at most sigma, the distance of the f64 weights from the reference is for ever at most r^(t/L) times the first distance plus 2 L (delta + c ||phi|| sigma) / (1 - r) plus the fixed rounding term E (for Momentum and NAG in the distance of C154, with 2 lr / (1 - m) for c; for NAG the shift m phi of every call counts as drift), and predictions at any input are near those of the reference accordingly. (b) Two runs from different weights, and velocities, on the same stream approach each other: their distance is at most r^(t/L) times the first distance plus the rounding terms of the two.", "quantifier": "all streams within the stated sizes, all references, drifts and noises, all initial states, every iteration order, every number of calls", "why_tests_cant": "The claim compares whole unbounded runs on arbitrary changing targets; tests run a few streams with fixed targets.", "anchors": ["src/optim/sgd.rs: SGD::step_scaled", "src/optim/isgd.rs: ISGD::step_scaled", "src/optim/momentum.rs: SGDMomentum::step_scaled", "src/optim/nesterov.rs: NAG::step_scaled", "src/lib.rs: ScalarLFA::update_with", "src/features.rs: Features::dot"]}
{"id": "C193", "title": "Built-in approximators trained from scratch do not overflow", "statement": "Take an approximator fresh from LFA::scalar over a basis that at every input gives n features of which at most k are stored, all finite, with squares summing to at most s (n, k <= 2^40, s <= 2^200), and train it in f64 towards targets up to Y <= 2^100, every hash map iterating in any order at every call. SGD with rate l, l s <= 2: for every T with (8 k + 11) T <= 2^52 all weights after T calls are finite, their Euclidean length is at most 2 T l sqrt(s) Y + 1, they are within (8 k + 11) T^2 2^-52 l sqrt(s) Y (up to T 2^-799) of exact training, and whatever evaluate can return at such an input is at most 2 sqrt(s) (2 T l sqrt(s) Y + 1) + 1 in magnitude. ISGD: the same for any rate l <= 2^100 and (12 k + 25) T <= 2^52, with sqrt(l) / 2 in place of l sqrt(s). Such runs exist: nothing panics or fails. The condition holds for tile coding (k = s = the number of tilings) and uniform grids (k = s = 1) at every input that does not panic, NaN included; for polynomials on [-1, 1], Fourier features within their limits, Chebyshev features within their limits (order up to 11, s = 4 n), exponential, squared-exponential and rational quadratic kernels, Matern and cosine kernels at points not too far from the centroids, constants and biases, L1-, L-infinity- and L2-normalised bases, and for stacks of such bases.", "quantifier": "all built-in bases of the list with all parameters, all inputs as stated, all bounded targets, all rates as stated, every iteration order, every number of calls up to the stated bound", "why_tests_cant": "The claim covers every stream of up to 2^52 / (8 k + 11) calls and every basis; no test can run them.", "anchors": ["src/lib.rs: LFA::scalar", "src/lib.rs: ScalarLFA::update_with", "src/lib.rs: ScalarLFA::evaluate", "src/optim/sgd.rs: SGD::step_scaled", "src/optim/isgd.rs: ISGD::step_scaled", "src/basis/tile_coding.rs: TileCoding::project", "src/basis/uniform_grid.rs: UniformGrid::project", "src/basis/stack.rs: Stack::project", "src/features.rs: Features::dot"]}
{"id": "C194", "title": "Too large a learning rate ruins an f64 approximator in finitely many calls", "statement": "Train an approximator with SGD in f64 on one input x with target y again and again, the hash map iterating in any order at every call. Let phi be the features at x (n of them, at most k stored, moderate sizes), and let q = lr |phi|^2 exceed 2 by enough that (128 k + 64) 2^-53 q^2 <= (q - 2)^2. Start from finite weights with |phi| |w| <= 4 q / (q - 2) |e| and |e| >= 2^-600, where e = y - phi . w is the first error; the zero weights of LFA::scalar qualify when |y| >= 2^-600. Then, as long as all weights are finite, the error grows by the factor q / 2 at every call, rounding included. For every T with (q / 2)^T |e| >= 2^1165: after T calls, and for ever after, some weight in use at x is infinite or NaN and so is everything evaluate can return at x, and from call T + 1 on every weight in use at x is infinite or NaN. For tile coding with m distinct cells at x this means any rate above 2 / m (by the margin): with 16 tilings and rate 1/4, 1165 calls are enough.", "quantifier": "all bases, inputs, targets and rates as stated, all starting weights as stated, every iteration order, all numbers of calls", "why_tests_cant": "A test can watch one approximator diverge; that every one does, within a stated number of calls, from every start and in spite of rounding, and never comes back, is a statement about unboundedly many runs of unbounded length.", "anchors": ["src/lib.rs: LFA::scalar", "src/lib.rs: ScalarLFA::update_with", "src/lib.rs: ScalarLFA::evaluate", "src/optim/sgd.rs: SGD::step_scaled", "src/basis/tile_coding.rs: TileCoding::project", "src/features.rs: Features::dot"]}
{"id": "C195", "title": "Adam and AdaMax can move for ever against the average error", "statement": "Call update(x, e_t) again and again at one input x. SGD moves the prediction at x by lr |phi|^2 times the sum of the errors, so it follows their average. Adam and AdaMax need not. Take Adam fresh from Adam::new with any learning rate and any decays with 0 <= beta1, beta1^2 < beta2 < 1 (which includes the usual 0.9 and 0.999), or AdaMax with beta1 < beta2 < 1. For every number mu, however large, there are a period N, an error C and a constant K such that the errors C, -1, ..., -1, C, -1, ... (C at every N-th call) sum to at least mu T over the first T calls for every T, and yet from any weights the prediction at x after T calls is at most the first prediction plus lr |phi|_1 (K - T / N): if lr > 0 and phi is not zero it goes to minus infinity, linearly, while the errors ask for the opposite on average. Exact arithmetic.", "quantifier": "all bases and inputs, all learning rates >= 0, all decays as stated, all averages mu, all starting weights, all numbers of calls", "why_tests_cant": "The effect needs periods of many thousand calls with the usual decays, and the claim is about the limit, for every basis and every choice of decays.", "anchors": ["src/lib.rs: ScalarLFA::update", "src/lib.rs: ScalarLFA::evaluate", "src/optim/adam.rs: Adam::step_scaled", "src/optim/adam.rs: Adam::new", "src/optim/adamax.rs: AdaMax::step_scaled", "src/optim/adamax.rs: AdaMax::new", "src/optim/sgd.rs: SGD::step_scaled"]}
{"id": "C196", "title": "SGD, ISGD, Momentum and Adagrad follow the average error, and NAG only up to a drift", "statement": "Call update(x, e_t) again and again at one input x, and suppose that the errors sum to at least mu T over the first T calls, for every T, with mu >= 0 (the streams on which Adam and AdaMax go the wrong way are of this kind). Then the prediction after T calls is: for ISGD exactly the first prediction plus lr / (1 + lr |phi|^2) |phi|^2 times the sum of the errors; for Momentum at least the first prediction plus lr |phi|^2 mu T, whatever the momentum >= 0; for Adagrad fresh from new, with errors at most E in size, at least the first prediction plus lr mu sqrt(T) times the sum over the weights of phi_i^2 / (E |phi_i| + 1e-7). So they rise without bound when mu > 0, lr > 0 and phi is not zero. NAG adds momentum times phi to the weights at every call whatever the error, so it moves |phi|^2 momentum T more than Momentum does: when every error is at least -c with lr c / (1 - momentum) < momentum < 1 it rises for ever (unless phi is zero), even if every single error is negative. Exact arithmetic.", "quantifier": "all bases and inputs, all learning rates and momenta as stated, all error sequences as stated, all starting weights, all numbers of calls", "why_tests_cant": "The claim is about every error sequence and its limit; a test shows one sequence and one horizon.", "anchors": ["src/lib.rs: ScalarLFA::update", "src/lib.rs: ScalarLFA::evaluate", "src/optim/isgd.rs: ISGD::step_scaled", "src/optim/momentum.rs: SGDMomentum::step_scaled", "src/optim/nesterov.rs: NAG::step_scaled", "src/optim/adagrad.rs: Adagrad::step_scaled"]}
{"id": "C197", "title": "Training in f64 on a repeated sequence of calls is eventually periodic", "statement": "Pass over one fixed list of calls (evaluate, update, update_with, update_index, ...) again and again with an approximator in double precision, projections visiting their features in the same order each time. From some pass on the approximator is exactly what it was p passes before, weights, optimiser state and all, for one p >= 1: for scalar and vector approximators, every basis, every one of the seven optimisers, with overflow and NaN included. If m numbers are stored in weights and optimiser then the first repetition comes within 2^(65 m) passes. A sequence of finite predictions in f64 converges, as real numbers, exactly if it is constant from some point on, so training either stops moving a prediction altogether or never converges: SGD with learning rate 2 on a bias predicts 0, 2, 0, 2, ... for target 1.", "quantifier": "all bases, optimisers, lists of calls, weights, closures that depend only on features and predictions; all summation orders", "why_tests_cant": "The cycle can start after astronomically many passes; the claim is about every infinite run.", "anchors": ["src/lib.rs: ScalarLFA::update", "src/lib.rs: ScalarLFA::update_with", "src/lib.rs: ScalarLFA::evaluate", "src/lib.rs: VectorLFA::update", "src/lib.rs: VectorLFA::update_index", "src/lib.rs: VectorLFA::update_with", "src/optim/mod.rs: Optimiser::step_scaled"]}
{"id": "C198", "title": "Adagrad's total error on any sequence of inputs is bounded while its weights are, and it learns tables at any rate", "statement": "In exact arithmetic, let a scalar approximator with a fresh Adagrad and a positive learning rate be updated towards any targets at any sequence of inputs, with n features bounded by G. If during the first T calls every weight stays within D of the corresponding weight of some reference approximator, then the sum of its squared errors over those calls is at most twice the reference's plus 2 (n G (D^2 / (2 lr) + lr))^2 + n D^2 1e-7 / lr, which does not grow with T. So if the reference predicts every target, the errors are square-summable and tend to zero. If at most one feature is not zero at each input (as with a uniform grid) and the reference predicts every target, then no weight is ever further from the reference's than the larger of its initial distance and the learning rate; hence a uniform grid learns every table of targets, whatever the learning rate and the order of the inputs.", "quantifier": "all bases, inputs, targets, reference weights, learning rates and horizons; for grids all dimensions, partitions and visiting orders", "why_tests_cant": "The claim is about infinite sequences chosen by an adversary and about a constant that is the same for every horizon; a test sees finitely many calls of finitely many sequences.", "anchors": ["src/optim/adagrad.rs: Adagrad::step_scaled", "src/lib.rs: ScalarLFA::update_with", "src/basis/uniform_grid.rs: UniformGrid::project"]}
{"id": "C199", "title": "How fast a prediction can change with the input", "statement": "In exact arithmetic, with W the sum of the absolute weights of a scalar approximator: over a Fourier basis of order p the predictions at x and y differ by at most W pi p times the sum over the coordinates of abs(x_j - y_j) / (hi_j - lo_j), for all inputs; over a Chebyshev basis of order p (at most 11) by at most W 2 p^2 times that sum, for inputs inside the limits; over a Polynomial basis of order p by at most W p times the sum of abs(x_j - y_j), for inputs in the unit cube; over a kernel basis with any of the five stationary kernels by at most W times the variance times the scaled distance between x and y, and with a rational quadratic kernel of power q by q / sqrt 2 times that, for all inputs. For one input coordinate the constants pi p and 2 p^2, and the constant 1 of the exponential kernel, cannot be lowered.", "quantifier": "all orders, dimensions, limits, variances, lengthscales, centroids, weights and pairs of inputs", "why_tests_cant": "A bound on the change between every pair of inputs, with the best constant, ranges over a continuum of pairs and weights.", "anchors": ["src/basis/fourier.rs: Fourier::project", "src/basis/polynomial/mod.rs: Chebyshev::project", "src/basis/polynomial/mod.rs: Polynomial::project", "src/basis/kernelised.rs: KernelBasis::project", "src/basis/kernels/stationary.rs: Kernel::kernel", "src/basis/kernels/rational_quadratic.rs: RationalQuadratic::kernel", "src/lib.rs: ScalarLFA::evaluate"]}
{"id": "C200", "title": "Adam and AdaMax with momentum stay around a repeated target", "statement": "In exact arithmetic, train any scalar approximator with update_with for ever on one input with one fixed target, some feature of the input not zero, the learning rate positive. With Adam and beta1^2 < beta2 < 1, let S be lr times the sum of the absolute features divided by sqrt((1 - beta2)(1 - beta1^2 / beta2)); with AdaMax and beta1 < beta2 < 1, let S be lr times the sum of the absolute features divided by 1 - beta1 / beta2. Then the error never exceeds the larger of the first error and S (1 + beta1 / (1 - beta1)^2), and from some call on it is at most S (1 + beta1) / (1 - beta1), whatever the starting weights.", "quantifier": "all bases, inputs with a non-zero feature, targets, starting weights, learning rates, decays in the stated range, and all numbers of updates", "why_tests_cant": "The bound is about every call of an endless run and about when it has settled; the momentum can push the wrong way for a long time before it turns.", "anchors": ["src/optim/adam.rs: Adam::step_scaled", "src/optim/adamax.rs: AdaMax::step_scaled", "src/lib.rs: ScalarLFA::update_with"]}
{"id": "C201", "title": "An approximator that learns from its mistakes makes finitely many", "statement": "Use the sign of evaluate as the class of an input, and call update(x, y) with the label y in {1, -1} only when the sign is not that of y. In exact arithmetic, for features of squared norm at most R, any starting weights w and any positive learning rate lr, and for all reference weights u, the number of mistakes before any moment is at most |w - lr R u|^2 / (lr^2 R) plus twice the sum over the mistakes of max(0, 1 - y u.phi) with SGD, and 1 + lr R times that with ISGD. So if u separates the classes with margin 1, a fresh approximator makes at most R |u|^2 mistakes over all time with SGD, whatever the learning rate, and from some call on none. In f64 the same bound holds for SGD with a power of two from 2^-1074 to 2^900 as learning rate and integer features if R (R |u|^2 + 1) <= 2^53, for any order of summation; over a table of n cells, such as a uniform grid, with classes that depend on the cell, there are at most n mistakes.", "quantifier": "all bases, infinite sequences of inputs and labels, starting weights, learning rates, reference weights and times; in f64 all orders of summation", "why_tests_cant": "The bound counts mistakes over endless sequences of inputs chosen by an adversary, against every reference vector.", "anchors": ["src/lib.rs: ScalarLFA::evaluate", "src/lib.rs: ScalarLFA::update", "src/optim/sgd.rs: SGD::step_scaled", "src/optim/isgd.rs: ISGD::step_scaled"]}
{"id": "C202", "title": "The adaptive optimisers cannot be driven to overflow by their own predictions", "statement": "In f64, let update_with feed back an error computed from the current prediction, at inputs where the basis has at most 2^40 stored finite features of total square at most 2^200, and let the learning rate be anything in [-1, 1]. With Adagrad and starting weights at most a, every weight is at most min(a + t, 2^53) in size after t calls, for all t, without a bound on t. With AdaMax every weight stays below 2^161 for ever if beta1 + 2^-40 <= beta2, and with Adam if beta1^2 + 2^-40 <= beta2, which holds for the usual 0.9 and 0.999. So weights and predictions never become infinite or NaN, whatever the inputs and targets up to 2^390, for any order of summation and of iteration of hash maps at each call.", "quantifier": "all bases and inputs with such features, infinite sequences of inputs and of error functions, learning rates in [-1, 1], decay rates, starting weights, orders of summation, and times", "why_tests_cant": "The claim is about runs of every length, in which each error depends on all earlier roundings; with SGD the same loop overflows when the rate is too large.", "anchors": ["src/lib.rs: ScalarLFA::update_with", "src/lib.rs: ScalarLFA::evaluate", "src/optim/adagrad.rs: Adagrad::step_scaled", "src/optim/adamax.rs: AdaMax::step_scaled", "src/optim/adam.rs: Adam::step_scaled"]}
{"id": "C203", "title": "An approximator with an output for each class makes boundedly many mistakes", "statement": "Let the largest output of evaluate be the class, and on a mistake call update_index with error 1 for the output of the label and with error -1 for any one output that was not smaller. For features of squared norm at most R in any basis, any number of outputs, any starting weights and any positive learning rate, the number of mistakes with SGD is at most the squared norm of w - 2 lr R u over 2 lr^2 R plus twice what the reference weights u miss of a lead of 1, for all u; with ISGD it is 1 + lr R times that. If with some u the label always leads by 1, a fresh approximator makes at most 2 R times the squared norm of u mistakes, whatever the rate and the choice of rivals, and none from some call on. In f64 the same bound holds for SGD with a power of two from 2^-1074 to 2^900 as learning rate and integer features if R >= 1 and R (2 R |u|^2 + 1) <= 2^53, for any order of summation. With a table such as a uniform grid and classes that depend on the cell, in f64, a fresh approximator makes at most one mistake in each cell, with SGD at any positive rate (whatever the rounding) and with ISGD at any rate from 2^-1000 to 2^900.", "quantifier": "all bases, sequences of inputs and labels, numbers of outputs, choices of rivals, learning rates, starting weights and reference weights; all tables and roundings", "why_tests_cant": "The bound is over all time and over all sequences and choices of rivals; a test runs a few sequences.", "anchors": ["src/lib.rs: VectorLFA::evaluate", "src/lib.rs: VectorLFA::update_index", "src/optim/sgd.rs: SGD::step_scaled", "src/optim/isgd.rs: ISGD::step_scaled"]}
{"id": "C204", "title": "Several outputs, and Q-learning, with Adagrad, AdaMax and Adam do not overflow", "statement": "Let one approximator with any number of outputs, which share one optimiser fresh from new, and with weights that start (at zero, or) at most 2^53 (Adagrad) or 2^161 (AdaMax, Adam) in size, be trained in f64 by any sequence of update, update_with and update_index calls at inputs where the basis gives at most 2^40 stored, finite features of squared norm at most 2^200. The errors may depend on all that happened before, on predictions for other inputs and outputs too; they need to be at most 2^400 only while predictions are at most 2^193 (Adagrad) or 2^301 (AdaMax, Adam). With a learning rate in [-1, 1], and decay rates with beta1 (AdaMax) or its square (Adam) at least 2^-40 below beta2, the weights never exceed 2^53 or 2^161 and predictions never exceed those bounds, after any number of calls. In particular Q-learning, with rewards up to 2^390 and discounts in [-1, 1], never overflows with these optimisers, in any environment.", "quantifier": "all sequences of calls of any length, inputs, outputs, errors fed back, environments, learning rates and decay rates in range, and bases with moderate features", "why_tests_cant": "The claim is over all time and all feedback; a test runs finitely many calls in one environment.", "anchors": ["src/lib.rs: VectorLFA::update", "src/lib.rs: VectorLFA::update_with", "src/lib.rs: VectorLFA::update_index", "src/lib.rs: VectorLFA::evaluate", "src/optim/adagrad.rs: Adagrad::step_scaled", "src/optim/adamax.rs: AdaMax::step_scaled", "src/optim/adam.rs: Adam::step_scaled"]}
{"id": "C205", "title": "Stacks trained by Adam and AdaMax, and what a bias does to inactive weights", "statement": "With Adam or AdaMax, training a stack gives the weights of its parts trained separately, provided that at every input the parts are both sparse or both dense. If one is sparse and the other dense, the averages still agree with those of the parts, but a weight whose feature is not stored in the sparse part moves in the stack: by the learning rate times its corrected first average over its divisor, so it stays where it is only if its first average is zero. Adding a bias to a sparse basis is such a case: with Adam, a call at an input that does not use a feature leaves the feature's weight alone without the bias, and moves it with the bias once the feature has been trained.", "quantifier": "all pairs of bases, inputs, weights, optimiser states, rates, errors and finite training runs, in exact arithmetic", "why_tests_cant": "Training runs and bases are unbounded; a test on a dense basis sees no difference.", "anchors": ["src/basis/stack.rs: Stack::project", "src/basis/mod.rs: Combinators::with_bias", "src/basis/constant.rs: Bias", "src/optim/adam.rs: Adam::step_scaled", "src/optim/adamax.rs: AdaMax::step_scaled"]}
{"id": "C206", "title": "Training a stack is exact to the bit, and what a bias does with infinite errors", "statement": "In f64 too, with rounding, NaN and infinities: training a stack with SGD, Momentum, NAG, Adam or AdaMax by any sequence of update calls gives bit for bit the weights and optimiser states of the two parts trained separately with the same errors, if at each input both parts are sparse or both dense; with Adagrad always. Stacking a sparse basis with a bias makes its features dense: with SGD the weight of a feature that is not active still stays as it is as long as the rate times the error is finite, but becomes NaN otherwise, while without the bias it stays whatever the error.", "quantifier": "all arithmetics, pairs of bases, inputs, weights, optimiser states, errors (NaN and infinite too) and finite training runs; for the bias all f64 values", "why_tests_cant": "Training runs, bases and the bit patterns of weights and errors are unbounded or too many to enumerate.", "anchors": ["src/basis/stack.rs: Stack::project", "src/features.rs: Features::stack", "src/basis/mod.rs: Combinators::with_bias", "src/lib.rs: ScalarLFA::update", "src/optim/sgd.rs", "src/optim/momentum.rs", "src/optim/nesterov.rs", "src/optim/adagrad.rs", "src/optim/adam.rs", "src/optim/adamax.rs"]}
{"id": "C207", "title": "Bootstrapping can ruin an f64 approximator at any learning rate", "statement": "Train x towards r + gamma evaluate(x') with SGD in f64, on one transition again and again, the hash maps iterating in any order at every call. Let phi and psi be the features at x and x' (n of them, at most k stored, moderate sizes), 0 <= gamma <= 1, lr <= 2^100, d = lr (gamma <phi, psi> - |phi|^2) and q = lr |phi| (|phi| + gamma |psi|), with d > 0 and (512 k + 256) 2^-53 (q + 1) q <= d^2. Let e = r + gamma psi . w - phi . w be the exact error of the transition, and start from finite weights with (|phi| + gamma |psi|) |w| <= 4 q / d |e| and |e| >= 2^-600; the zero weights of LFA::scalar qualify when |r| >= 2^-600. Then, as long as all weights are finite, the error grows at least by the factor 1 + d / 2 at every call, rounding included. For every T with (1 + d / 2)^T |e| >= 2^1166: after T calls, and for ever after, some weight in use at x is infinite or NaN and so is everything evaluate can return at x, and from call T + 1 on every weight in use at x is infinite or NaN. With one feature that is 1 at x and 2 at x', gamma = 3/4 and r = 1, this happens at every learning rate from 2^-38 to 2^100; at 1/8, 30000 calls are enough. The same holds for ISGD with lr <= 2^99, with a quarter of its rate a = lr / (1 + lr |phi|^2) for lr in d and q, and a >= 2^-1073; in the example, at every learning rate from 2^-36 to 2^99: its bound on the step does not protect it.", "quantifier": "all bases, transitions, discounts and rates as stated, all starting weights as stated, every iteration order, all numbers of calls", "why_tests_cant": "The loss takes thousands of calls and depends on rounding at each of them; tests run a few calls with rates that look small, and small rates do not help.", "anchors": ["src/lib.rs: ScalarLFA::update_with", "src/lib.rs: ScalarLFA::evaluate", "src/optim/sgd.rs: SGD::step_scaled", "src/features.rs: Features::dot"]}
{"id": "C208", "title": "Learning the values of a chain in a table in double precision stays near the discounted sums for ever", "statement": "Let every input of a set that the chain never leaves have one reward, one discount and one next input in f64, alike for inputs with the same projection, and let the basis be a table on these inputs (one activation, of value 1). Train a scalar approximator by update_with at x towards reward(x) + discount(x) evaluate(next(x)), every operation rounded, at any sequence of inputs, with discounts in [0, g], g < 1, and rewards at most (1 - g) V. With SGD at a rate l of at most 1 such that 32 2^-53 is at most l (1 - g) (ISGD: rate l at most 2^40, with l / (1 + l) in place of l and 64 and 32 in place of 32 and 16 throughout), and with initial weights within C - V where C is at least (32 2^-53 V + 16 2^-1075) / (l (1 - g)) and V + C at most 2^1000, every prediction is finite and within C of the exact discounted sum of rewards from its input, for ever. If the cells that transitions lead to and the cell of an input recur, the prediction there comes within (32 2^-53 V + 16 2^-1075) / (l (1 - g)) + \u03b5 of it, for every \u03b5 > 0. Such runs exist for every optimiser.", "quantifier": "all table bases, numbers of cells, chains, rewards, discounts and initial weights in range, orders of visits, and all calls for ever", "why_tests_cant": "The bound is about limits of endless runs in rounded arithmetic, over all chains and orders of visits.", "anchors": ["src/lib.rs: ScalarLFA::update_with", "src/lib.rs: ScalarLFA::evaluate", "src/optim/sgd.rs: SGD::step_scaled", "src/optim/isgd.rs: ISGD::step_scaled", "src/basis/uniform_grid.rs: UniformGrid::project"]}
{"id": "C209", "title": "Training several outputs in double precision is nearly repeatable, and nearly training each output alone", "statement": "Take a vector approximator trained with update_with towards lists of targets in f64 with SGD or ISGD, each hash map of features iterating in a new order at every call, under the conditions of C188 for the targets of output j; the other outputs may do anything. For ever, all weights of output j and all its predictions at inputs with moderate features \u03c6 are finite, and the weights are within the E of C181 of exact training. Two such runs, even on machines that sum arrays in different orders, stay within 2 E of one another in output j, and so do such a run and a scalar approximator trained on the targets of output j alone, though in f64 the two are not the same (C150). What they can predict differs by at most 6 \u2016\u03c6\u2016 E + 2^-1033.", "quantifier": "all bases, numbers of weights and outputs, inputs, targets, rates and initial weights in range, all orders of iteration at each call, all orders of summation, all calls for ever", "why_tests_cant": "iteration order is random per process, the strided dot product of a matrix column rounds in another order than the one of a vector, and the distance has to be bounded for endless training", "anchors": ["src/lib.rs: VectorLFA::update_with", "src/lib.rs: VectorLFA::evaluate", "src/features.rs: Features::dot", "src/optim/sgd.rs: SGD::step_scaled", "src/optim/isgd.rs: ISGD::step_scaled"]}
{"id": "C210", "title": "Several outputs trained from scratch do not overflow", "statement": "Take an approximator fresh from LFA::vector with m outputs over a basis that at every input gives n features of which at most k are stored, all finite, with squares summing to at most s (n, k <= 2^40, s <= 2^200; C193 lists the built-in bases that do), and train it with update_with in f64 towards lists of m targets, those of output j up to Y <= 2^100, every hash map iterating in any order at every call; the targets of other outputs may be anything, NaN included. SGD with rate l <= 2^100, l s <= 2: for every T with (8 k + 11) T <= 2^52 all weights of output j after T calls are finite, their Euclidean length is at most 2 T l sqrt(s) Y + 1, they are within (8 k + 11) T^2 2^-52 l sqrt(s) Y (up to T 2^-799) of exact training of that output alone, and whatever evaluate can return for it at such an input is at most 2 sqrt(s) (2 T l sqrt(s) Y + 1) + 1 in magnitude. ISGD: the same for any rate l <= 2^100 and (12 k + 25) T <= 2^52, with sqrt(l) / 2 in place of l sqrt(s) (and T 2^-499). Such runs exist: nothing panics or fails.", "quantifier": "all bases with such features, numbers of outputs, inputs as stated, targets bounded in the output at hand, rates as stated, every iteration order, every number of calls up to the stated bound", "why_tests_cant": "whether training overflows depends on rounding in every call of a long run and on random iteration order, and one output must be shown safe from whatever the others do", "anchors": ["src/lib.rs: LFA::vector", "src/lib.rs: VectorLFA::update_with", "src/lib.rs: VectorLFA::evaluate", "src/optim/sgd.rs: SGD::step_scaled", "src/optim/isgd.rs: ISGD::step_scaled"]}
{"id": "C211", "title": "Several outputs in double precision forget their start and track moving targets", "statement": "Under the conditions of C209 for the targets of output j of a vector approximator (SGD or ISGD, every hash map iterating in any order at every call, the other outputs free): (a) for any moving reference weights, if in every call their drift plus c ||phi|| times the distance by which they miss the target of output j is at most beta, where c is the rate of the call, then for ever the distance of the f64 weights of output j from the reference is at most r^(t/L) times the first distance plus 2 L beta / (1 - r) plus the fixed rounding term E of C181, and predictions of output j at any input with moderate features are near those of the reference accordingly. (b) Two runs with the same basis and optimiser from different weights on the same stream approach each other in output j: their distance is at most r^(t/L) times the first distance plus the rounding terms of the two.", "quantifier": "all streams within the stated sizes, numbers of outputs, references, drifts and noises, all initial weights in range, every iteration order, every number of calls", "why_tests_cant": "tracking is a limit over endless training on targets that move, with rounding in every call and random iteration order", "anchors": ["src/lib.rs: VectorLFA::update_with", "src/lib.rs: VectorLFA::evaluate", "src/features.rs: Features::dot", "src/optim/sgd.rs: SGD::step_scaled", "src/optim/isgd.rs: ISGD::step_scaled"]}
