{"id": "C01", "title": "Stopping rule is exactly the five thresholds, in priority order", "statement": "After each iteration an optimizer stops if and only if the time budget is used up, or the iteration count has reached max_iterations, or the gradient norm is strictly below min_gradient_norm, or the step size is strictly below min_step_size, or the evaluation count has reached max_cost_evaluations; the reported reason is the first of these that holds, in that order.", "quantifier": "every setting of the five thresholds (including NaN and infinite values), every clock reading, every iteration/gradient/step/evaluation value", "why_tests_cant": "The decision ranges over all orderings of ten floating point quantities including NaN; tests sample a few.", "anchors": ["src/pymanopt/optimizers/optimizer.py: Optimizer._check_stopping_criterion"]}
{"id": "C02", "title": "Every run of every optimizer terminates within max_iterations", "statement": "run() of SteepestDescent, ConjugateGradient, TrustRegions, NelderMead and ParticleSwarm performs at most max(1, max_iterations) iterations, whatever the cost, gradient, Hessian, clock and random draws return, and the reported iteration count is the number performed.", "quantifier": "every problem, every initial point, every (possibly wrong or NaN) callback result, every clock history, every max_iterations", "why_tests_cant": "Termination is a liveness statement over all runs; a test only sees runs that did terminate.", "anchors": ["src/pymanopt/optimizers/steepest_descent.py: SteepestDescent.run", "src/pymanopt/optimizers/conjugate_gradient.py: ConjugateGradient.run", "src/pymanopt/optimizers/trust_regions.py: TrustRegions.run", "src/pymanopt/optimizers/nelder_mead.py: NelderMead.run", "src/pymanopt/optimizers/particle_swarm.py: ParticleSwarm.run"]}
{"id": "C03", "title": "Line searches make a bounded number of cost evaluations", "statement": "One call to search() of either built-in line searcher evaluates the cost at least once and at most max_iterations+1 times (once if max_iterations is not positive).", "quantifier": "every objective, manifold, point, direction, memory state and line-search setting", "why_tests_cant": "The worst case needs an objective that fails Armijo forever; no finite sample covers all objectives.", "anchors": ["src/pymanopt/optimizers/line_search.py: BackTrackingLineSearcher.search, AdaptiveLineSearcher.search"]}
{"id": "C04", "title": "Line searches never return a point with larger cost", "statement": "The point returned by search() of either built-in line searcher never compares greater in cost than the starting cost f0; if the last trial does, the starting point itself is returned with step size 0 times the direction norm.", "quantifier": "every objective (including NaN values), manifold, point, direction, df0 (even of the wrong sign), memory state and setting, in floating point as well as exact arithmetic", "why_tests_cant": "Must hold for every objective and every rounding behaviour.", "anchors": ["src/pymanopt/optimizers/line_search.py: BackTrackingLineSearcher.search, AdaptiveLineSearcher.search"]}
{"id": "C05", "title": "Armijo condition holds on early exit of a line search", "statement": "If search() stops before its evaluation budget is exhausted, the trial point it stopped at, retraction(x, alpha*d) with alpha the initial trial contracted by contraction_factor once per extra evaluation, does not violate the sufficient decrease condition, and every earlier trial did violate it.", "quantifier": "every objective, manifold, point, direction, memory state and setting", "why_tests_cant": "Characterises the whole trial sequence of the loop for all objectives.", "anchors": ["src/pymanopt/optimizers/line_search.py: BackTrackingLineSearcher.search, AdaptiveLineSearcher.search"]}
{"id": "C06", "title": "Line-search memory drives the next initial trial", "statement": "BackTrackingLineSearcher's first trial is initial_step_size/norm on the first call and optimism*2*(f0-previous f0)/df0 on later calls; AdaptiveLineSearcher's is initial_step_size/norm on the first call and afterwards the accepted alpha, doubled unless exactly two evaluations were used; a rejected step makes the adaptive searcher propose 0 next.", "quantifier": "every sequence of search() calls", "why_tests_cant": "Depends on the whole call history of the searcher object.", "anchors": ["src/pymanopt/optimizers/line_search.py: BackTrackingLineSearcher.search, AdaptiveLineSearcher.search"]}
{"id": "C07", "title": "Steepest descent never increases the cost", "statement": "In a SteepestDescent run with a built-in line searcher the sequence of logged costs and the returned cost are non-increasing, hence the returned cost is at most the cost at the initial point, even if the gradient is wrong; it only needs the cost never to be NaN.", "quantifier": "every problem whose cost is never NaN, initial point, gradient function, clock, setting", "why_tests_cant": "Monotonicity over the complete iterate history of every run.", "anchors": ["src/pymanopt/optimizers/steepest_descent.py: SteepestDescent.run", "src/pymanopt/optimizers/line_search.py"]}
{"id": "C08", "title": "Conjugate gradient never increases the cost", "statement": "In a ConjugateGradient run with a built-in line searcher that returns a result, logged costs and returned cost are non-increasing, for every beta rule, preconditioner, orth_value and gradient function.", "quantifier": "every problem whose cost is never NaN, initial point, beta rule, preconditioner, orth_value", "why_tests_cant": "Monotonicity over the complete iterate history of every run.", "anchors": ["src/pymanopt/optimizers/conjugate_gradient.py: ConjugateGradient.run", "src/pymanopt/optimizers/line_search.py"]}
{"id": "C09", "title": "SteepestDescent / ConjugateGradient / TrustRegions results are self-consistent", "statement": "The returned cost is the cost function's value at the returned point, and the returned gradient norm is the norm of the gradient at the returned point.", "quantifier": "every problem, initial point, setting, run", "why_tests_cant": "Relates fields of the result over all runs and all exit paths.", "anchors": ["src/pymanopt/optimizers/steepest_descent.py: SteepestDescent.run", "src/pymanopt/optimizers/conjugate_gradient.py: ConjugateGradient.run", "src/pymanopt/optimizers/trust_regions.py: TrustRegions.run"]}
{"id": "C10", "title": "Conjugate gradient only searches along descent directions", "statement": "Whenever ConjugateGradient calls the line searcher, the directional derivative it passes is negative, or else the direction is the negative preconditioned gradient and the derivative passed is minus <grad, Pgrad>; so with a positive definite preconditioner and non-zero gradient it is always negative, and it is always the true inner product of gradient and direction.", "quantifier": "every problem, beta rule, iterate", "why_tests_cant": "Invariant of every iteration of every run.", "anchors": ["src/pymanopt/optimizers/conjugate_gradient.py: ConjugateGradient.run"]}
{"id": "C11", "title": "Beta rules respect their documented bounds", "statement": "PolakRibiere, HestenesStiefel and LiuStorey betas are never negative, HagerZhang's is at least its eta bound, FletcherReeves' equals the ratio of preconditioned squared gradient norms; with Powell's restart triggered beta is zero and the direction is the negative preconditioned gradient.", "quantifier": "every gradient pair, direction, transported vector", "why_tests_cant": "Holds for all real inputs, not sampled ones.", "anchors": ["src/pymanopt/optimizers/conjugate_gradient.py: _beta_fletcher_reeves, _beta_polak_ribiere, _beta_hestenes_stiefel, _beta_hager_zhang, _beta_liu_storey, ConjugateGradient.run"]}
{"id": "C12", "title": "Conjugate gradient survives reaching an exact critical point", "statement": "If the line search lands on a point with exactly zero gradient, ConjugateGradient stops and returns that point.", "quantifier": "every problem and manifold", "why_tests_cant": "Needs the exact corner case for every manifold's scalar type.", "anchors": ["src/pymanopt/optimizers/conjugate_gradient.py: ConjugateGradient.run (orth_grads)", "src/pymanopt/manifolds/euclidean.py: _Euclidean.inner_product"]}
{"id": "C13", "title": "Steepest descent started at an exact critical point returns it", "statement": "If the Riemannian gradient at the initial point is exactly zero, SteepestDescent returns the initial point.", "quantifier": "every problem and critical initial point", "why_tests_cant": "Depends on IEEE special values in every manifold's retraction.", "anchors": ["src/pymanopt/optimizers/steepest_descent.py: SteepestDescent.run", "src/pymanopt/optimizers/line_search.py: BackTrackingLineSearcher.search"]}
{"id": "C14", "title": "Runs are independent of optimizer history unless reuse is requested", "statement": "With reuse_line_searcher=False, the result of SteepestDescent.run / ConjugateGradient.run depends only on the optimizer's constructor arguments and the call's arguments, not on earlier runs; the line searcher given to the constructor is never modified.", "quantifier": "every sequence of earlier runs on the same optimizer object", "why_tests_cant": "Quantifies over all call histories.", "anchors": ["src/pymanopt/optimizers/steepest_descent.py: SteepestDescent.run", "src/pymanopt/optimizers/conjugate_gradient.py: ConjugateGradient.run"]}
{"id": "C15", "title": "Dimension-derived defaults of NelderMead / ParticleSwarm follow the problem at hand", "statement": "When max_cost_evaluations, max_iterations or population_size are left at None, each run uses the defaults computed from the dimension of that run's manifold.", "quantifier": "every sequence of runs of one optimizer object on manifolds of different dimension", "why_tests_cant": "Quantifies over call histories.", "anchors": ["src/pymanopt/optimizers/nelder_mead.py: NelderMead.run", "src/pymanopt/optimizers/particle_swarm.py: ParticleSwarm.run"]}
{"id": "C16", "title": "Nelder-Mead keeps and returns the best vertex", "statement": "The best cost in the simplex never increases from one iteration to the next and the returned point has the least cost among the initial vertices and all vertices accepted later; the returned cost is the cost at the returned point.", "quantifier": "every problem (NaN-free cost), simplex, reflection/expansion/contraction setting, centroid routine", "why_tests_cant": "Invariant over the full run.", "anchors": ["src/pymanopt/optimizers/nelder_mead.py: NelderMead.run"]}
{"id": "C17", "title": "Nelder-Mead accepts exactly simplices of dim+1 points", "statement": "run(initial_point=simplex) accepts a sequence of dim+1 points and raises ValueError for any other length.", "quantifier": "every dimension and every sequence length", "why_tests_cant": "Ranges over all dimensions and lengths.", "anchors": ["src/pymanopt/optimizers/nelder_mead.py: NelderMead.run (initial simplex check)"]}
{"id": "C18", "title": "Nelder-Mead iteration follows the published decision table", "statement": "Each iteration either replaces only the worst vertex by the reflected, expanded, outside- or inside-contracted point under exactly the documented cost conditions, or keeps the best vertex and moves every other to its pair mean with the best; the simplex size never changes and a replacement never has greater cost than the vertex it replaces.", "quantifier": "every simplex, costs, parameters", "why_tests_cant": "All branch combinations over all cost orderings.", "anchors": ["src/pymanopt/optimizers/nelder_mead.py: NelderMead.run"]}
{"id": "C19", "title": "Particle swarm keeps and returns the best evaluated position", "statement": "The returned cost is the cost at the returned point and is at most the cost of every position evaluated during the run, in particular of every member of the initial population; each particle's personal best likewise.", "quantifier": "every problem (NaN-free cost), swarm, random draws", "why_tests_cant": "Invariant over the full run and all random draws.", "anchors": ["src/pymanopt/optimizers/particle_swarm.py: ParticleSwarm.run"]}
{"id": "C20", "title": "Particle swarm evaluates every position it moves to", "statement": "The returned point has the least cost among all positions the swarm occupied during the run.", "quantifier": "every problem, swarm, draws", "why_tests_cant": "Depends on all random draws.", "anchors": ["src/pymanopt/optimizers/particle_swarm.py: ParticleSwarm.run (objective(xi))"]}
{"id": "C21", "title": "Particle swarm leaves the caller's initial population alone and accepts any sequence", "statement": "run(initial_point=population) does not modify the sequence the caller passed and works for lists and tuples alike.", "quantifier": "every population and number of iterations", "why_tests_cant": "Aliasing effect over all runs.", "anchors": ["src/pymanopt/optimizers/particle_swarm.py: ParticleSwarm.run"]}
{"id": "C22", "title": "Reported cost_evaluations is the number of cost evaluations", "statement": "The cost_evaluations field of a result equals how often the cost function was called during the run.", "quantifier": "every optimizer, problem, run", "why_tests_cant": "Counts calls over every execution path.", "anchors": ["src/pymanopt/optimizers/steepest_descent.py", "src/pymanopt/optimizers/conjugate_gradient.py", "src/pymanopt/optimizers/nelder_mead.py", "src/pymanopt/optimizers/particle_swarm.py"]}
{"id": "C23", "title": "Trust-region radius stays in (0, Delta_bar]", "statement": "If 0 < Delta0 <= Delta_bar then throughout a TrustRegions run the trust-region radius is positive and at most Delta_bar, and with default arguments 0 < Delta0 <= Delta_bar holds whenever the manifold's typical_dist (or dimension) is positive.", "quantifier": "every problem, run length, model quality history", "why_tests_cant": "Invariant over all iterations and all rho sequences.", "anchors": ["src/pymanopt/optimizers/trust_regions.py: TrustRegions.run"]}
{"id": "C24", "title": "Trust regions never increases the cost beyond its regularisation", "statement": "Each accepted step satisfies f(new) < f(old) + rho_reg - rho_prime*(model decrease + rho_reg) with rho_reg = max(1,|f(old)|)*eps*rho_regularization; with rho_regularization = 0 and rho_prime >= 0 the cost never increases.", "quantifier": "every problem, Hessian, radius, iteration", "why_tests_cant": "All inputs and the corner cases rhoden = 0, NaN.", "anchors": ["src/pymanopt/optimizers/trust_regions.py: TrustRegions.run"]}
{"id": "C25", "title": "Trust regions costs are monotonically decreasing (as the code comments claim)", "statement": "With default options the costs at successive iterates of TrustRegions never increase.", "quantifier": "every problem", "why_tests_cant": "A one-ulp effect of a regularisation heuristic.", "anchors": ["src/pymanopt/optimizers/trust_regions.py: TrustRegions.run (lines 289-315)"]}
{"id": "C26", "title": "Trust regions rejects non-finite proposals", "statement": "If the proposal's cost or the model decrease is NaN the step is rejected, the iterate is unchanged and the radius shrinks.", "quantifier": "every state and every way NaN can arise", "why_tests_cant": "All NaN-producing paths.", "anchors": ["src/pymanopt/optimizers/trust_regions.py: TrustRegions.run"]}
{"id": "C27", "title": "Every trust-region rejection shrinks the radius", "statement": "With rho_prime < 1/4, whenever a step is rejected the radius is divided by four.", "quantifier": "every iteration, rho, including NaN", "why_tests_cant": "The corner cases of rho are exactly what tests miss.", "anchors": ["src/pymanopt/optimizers/trust_regions.py: TrustRegions.run"]}
{"id": "C28", "title": "The trust-region subproblem solver stays inside the trust region", "statement": "In exact arithmetic, with identity preconditioner and zero start, the step returned by the truncated CG solver has norm at most the radius, and exactly the radius when it reports negative curvature or an exceeded trust region.", "quantifier": "every linear self-adjoint (possibly indefinite) Hessian, gradient, radius, number of inner iterations", "why_tests_cant": "Loop invariant over unbounded inner iterations.", "anchors": ["src/pymanopt/optimizers/trust_regions.py: TrustRegions._truncated_conjugate_gradient"]}
{"id": "C29", "title": "The trust-region subproblem solver decreases the model", "statement": "With a linear self-adjoint Hessian the returned step never has a model value above zero, so the predicted decrease is non-negative; the returned Heta equals the Hessian applied to the returned step.", "quantifier": "every gradient, linear self-adjoint Hessian, radius, inner iteration count", "why_tests_cant": "Loop invariant over unbounded inner iterations.", "anchors": ["src/pymanopt/optimizers/trust_regions.py: TrustRegions._truncated_conjugate_gradient"]}
{"id": "C30", "title": "Inner iterations are bounded by maxinner and any bound is accepted", "statement": "The truncated CG solver makes at most maxinner Hessian-vector products and returns a step for every maxinner, including manifolds of dimension zero.", "quantifier": "every maxinner and problem", "why_tests_cant": "Ranges over all bounds including the empty loop.", "anchors": ["src/pymanopt/optimizers/trust_regions.py: TrustRegions._truncated_conjugate_gradient"]}
{"id": "C31", "title": "Iteration log has one consistent entry per iteration", "statement": "With log_verbosity >= 1 the returned log holds exactly one entry per iteration in order 1..iterations with that iteration's point, cost and gradient norm; with log_verbosity <= 0 the log's iterations field is None.", "quantifier": "every optimizer, problem, run length", "why_tests_cant": "History property of whole runs.", "anchors": ["src/pymanopt/optimizers/optimizer.py: Optimizer._initialize_log, _add_log_entry", "src/pymanopt/optimizers/steepest_descent.py", "src/pymanopt/optimizers/conjugate_gradient.py", "src/pymanopt/optimizers/trust_regions.py", "src/pymanopt/optimizers/nelder_mead.py", "src/pymanopt/optimizers/particle_swarm.py"]}
{"id": "C32", "title": "Problem.cost calls the user function on the flattened point", "statement": "For layout 1 the decorated function receives the point itself, for an integer layout n>1 its n components, and for a compound layout the components of all factors concatenated in order; malformed points (wrong number of groups, wrong group size) raise AssertionError instead of being passed on.", "quantifier": "every point layout and every point", "why_tests_cant": "All layouts and nestings.", "anchors": ["src/pymanopt/core/problem.py: Problem._wrap_function, Problem._flatten_arguments"]}
{"id": "C33", "title": "Regrouping gradients inverts flattening points", "statement": "For every compound layout, grouping the flat list of per-array values produced by flattening a well-formed point returns the same groups, and flattening grouped values returns the flat list; so gradient component i has the place of point component i.", "quantifier": "every layout and every well-formed point/flat list", "why_tests_cant": "Round-trip for all layouts.", "anchors": ["src/pymanopt/core/problem.py: Problem._flatten_arguments, Problem._group_return_values"]}
{"id": "C34", "title": "Gradients with the wrong shape are rejected", "statement": "On a compound layout a gradient/Hessian function returning something that is not a list or tuple, or with a number of elements other than the number of arrays in a point, raises ValueError; nothing else does.", "quantifier": "every layout and return value", "why_tests_cant": "All lengths.", "anchors": ["src/pymanopt/core/problem.py: Problem._group_return_values"]}
{"id": "C35", "title": "Problem constructor validation", "statement": "Construction raises ValueError exactly when some given function is not decorated by a backend, or both gradients, or both Hessians are supplied; otherwise it succeeds.", "quantifier": "every combination of supplied / omitted / undecorated functions", "why_tests_cant": "Complete decision table.", "anchors": ["src/pymanopt/core/problem.py: Problem.__init__, Problem._validate_function"]}
{"id": "C36", "title": "User-supplied derivatives take precedence and derived ones compose correctly", "statement": "problem.riemannian_gradient is the user's Riemannian gradient if supplied, otherwise the manifold's conversion of the Euclidean gradient, which is the user's if supplied and otherwise the backend-generated one; likewise for Hessians; the answer does not depend on the order or number of property accesses.", "quantifier": "every combination of supplied functions and every history of property accesses", "why_tests_cant": "All access histories of lazily cached properties.", "anchors": ["src/pymanopt/core/problem.py: Problem.euclidean_gradient, riemannian_gradient, euclidean_hessian, riemannian_hessian"]}
{"id": "C37", "title": "Derivative operators are generated at most once and only on demand", "statement": "A backend's gradient (Hessian) generator succeeds at most once per decorated function however often the operators are requested and is never called after a success nor before the first request; the same operator is returned each time (a generator that raises, as the NumPy backend's does, is called again on the next request).", "quantifier": "every sequence of requests", "why_tests_cant": "All histories.", "anchors": ["src/pymanopt/autodiff/__init__.py: Function.get_gradient_operator, Function.get_hessian_operator"]}
{"id": "C38", "title": "A problem's manifold and preconditioner are immutable", "statement": "After construction, assigning problem.manifold or problem.preconditioner raises AttributeError and leaves the value unchanged, as does assigning the operator properties cost and the gradients and Hessians, while any other attribute can be set.", "quantifier": "every history of assignments", "why_tests_cant": "All histories.", "anchors": ["src/pymanopt/core/problem.py: Problem.__setattr__"]}
{"id": "C39", "title": "Euclidean Hessians receive ambient-space vectors", "statement": "A user-supplied or generated Euclidean Hessian is always called with the manifold's ambient-space embedding of the tangent vector, while Riemannian Hessians receive the tangent vector unchanged; on product manifolds each factor's vector is embedded by that factor.", "quantifier": "every manifold, including products, point and vector", "why_tests_cant": "All manifolds and their products.", "anchors": ["src/pymanopt/core/problem.py: Problem._wrap_hessian_operator", "src/pymanopt/manifolds/manifold.py: Manifold.embedding", "src/pymanopt/manifolds/product.py: Product"]}
{"id": "C40", "title": "Automatic gradients work on every product manifold", "statement": "For every product manifold the backend-generated gradient operator yields one group per factor.", "quantifier": "every product, in particular with a single factor", "why_tests_cant": "All numbers of factors.", "anchors": ["src/pymanopt/core/problem.py: Problem._wrap_gradient_operator", "src/pymanopt/autodiff/backends/_autograd.py: generate_gradient_operator", "src/pymanopt/tools/__init__.py: unpack_singleton_sequence_return_value"]}
{"id": "C41", "title": "User-supplied Riemannian gradients on products can drive gradient optimizers", "statement": "If the user supplies riemannian_gradient on a product manifold, the value problem.riemannian_gradient returns supports the vector-space operations (negation, scaling, addition) gradient optimizers apply to it.", "quantifier": "every product manifold and gradient", "why_tests_cant": "All products.", "anchors": ["src/pymanopt/core/problem.py: Problem._group_return_values", "src/pymanopt/manifolds/product.py: _ProductTangentVector", "src/pymanopt/optimizers/steepest_descent.py: SteepestDescent.run"]}
{"id": "C42", "title": "Backend decorators accept exactly purely positional signatures", "statement": "A backend decorator accepts a callable iff it has either named positional parameters or *args but not both, and neither **kwargs nor keyword-only parameters; otherwise ValueError; a non-manifold argument is a TypeError; unavailable backends RuntimeError.", "quantifier": "every signature", "why_tests_cant": "Complete decision table.", "anchors": ["src/pymanopt/autodiff/__init__.py: backend_decorator_factory, Function.__init__"]}
{"id": "C43", "title": "Hessian operators split their arguments into point and vector", "statement": "A generated Hessian operator of an n-argument function called with 2n arrays passes the first n as the point and the last n as the direction, returns n arrays (the bare array if n=1); an odd number of arrays raises ValueError.", "quantifier": "every n and argument list", "why_tests_cant": "All n.", "anchors": ["src/pymanopt/tools/__init__.py: bisect_sequence, unpack_singleton_sequence_return_value", "src/pymanopt/autodiff/backends/_autograd.py", "src/pymanopt/autodiff/backends/_jax.py", "src/pymanopt/autodiff/backends/_pytorch.py", "src/pymanopt/autodiff/backends/_tensorflow.py"]}
{"id": "C44", "title": "Manifold constructor validation and num_values", "statement": "Manifold construction raises TypeError for a non-integer dimension or a layout that is not int/tuple/list, ValueError for a negative dimension or a non-positive layout entry, and otherwise num_values is the layout or the sum of its entries and is the number of arrays a point flattens to.", "quantifier": "every dimension and layout", "why_tests_cant": "Complete decision table.", "anchors": ["src/pymanopt/manifolds/manifold.py: Manifold.__init__, num_values"]}
{"id": "C45", "title": "Product manifold acts factor by factor", "statement": "Every geometric method of Product applies the corresponding factor's method to the corresponding components; the inner product is the sum of the factors', squared norm and distance are sums of squared ones, the dimension is the sum; nested products are rejected.", "quantifier": "every list of manifolds, points, vectors", "why_tests_cant": "Any number of factors.", "anchors": ["src/pymanopt/manifolds/product.py: Product"]}
{"id": "C46", "title": "A product of any number of manifolds can be formed", "statement": "Product(manifolds) succeeds for every sequence of non-product manifolds, including the empty one, and has dimension the sum of dimensions.", "quantifier": "every sequence of manifolds", "why_tests_cant": "Edge case of an empty numpy reduction.", "anchors": ["src/pymanopt/manifolds/product.py: Product.__init__", "src/pymanopt/manifolds/manifold.py: Manifold.__init__"]}
{"id": "C47", "title": "Product tangent vectors form a vector space", "statement": "Addition, subtraction, scaling, division and negation of product tangent vectors are componentwise, obey the vector-space laws when the components do, keep the length, and adding or subtracting vectors of different length raises ValueError.", "quantifier": "every pair of vectors and scalars", "why_tests_cant": "Laws for all lengths.", "anchors": ["src/pymanopt/manifolds/product.py: _ProductTangentVector"]}
{"id": "C48", "title": "Column printer lines are aligned", "statement": "For non-negative padding every header line and every row whose formatted values fit their column has the same length, the sum of the column widths, with each cell starting at its column's offset; a column is at least as wide as its name and its formatted placeholder plus the padding.", "quantifier": "every list of columns, formatter, values", "why_tests_cant": "All column lists.", "anchors": ["src/pymanopt/tools/printer.py: ColumnPrinter"]}
{"id": "C49", "title": "Linear-piece detection returns the best window", "statement": "identify_linear_piece returns a contiguous window of window_length+1 indices inside the data with the least fit residual among all windows and that window's polynomial; data shorter than the window raise.", "quantifier": "every data vector and window length", "why_tests_cant": "All lengths.", "anchors": ["src/pymanopt/tools/diagnostics.py: identify_linear_piece"]}
{"id": "C50", "title": "Stacked transpose and symmetrisation tools act matrix by matrix", "statement": "multitransp/multihconj are involutions reversing products; multisym/multiherm and multiskew/multiskewh are complementary idempotent projections onto (conjugate) symmetric and skew matrices, orthogonal to each other under the real trace inner product.", "quantifier": "every size, every stack length k, every real (or complex) input in exact arithmetic", "why_tests_cant": "An algebraic identity for all sizes and entries; tests check a handful of random matrices up to a tolerance.", "anchors": ["src/pymanopt/tools/multi.py: multitransp, multihconj, multisym, multiherm, multiskew, multiskewh"]}
{"id": "C51", "title": "multiqr returns the unique QR factorisation with non-negative diagonal", "statement": "multiqr(A) returns Q with orthonormal columns and upper triangular R with real non-negative diagonal and QR = A whatever signs or phases the underlying factorisation chose; for full column rank A the result is the only such pair.", "quantifier": "every size, every stack length k, every real (or complex) input in exact arithmetic", "why_tests_cant": "An algebraic identity for all sizes and entries; tests check a handful of random matrices up to a tolerance.", "anchors": ["src/pymanopt/tools/multi.py: multiqr"]}
{"id": "C52", "title": "Symmetric multiexpm / positive definite multilogm are the matrix exponential and its inverse", "statement": "multiexpm(A, symmetric=True) is the matrix exponential for Hermitian A and multilogm(A, positive_definite=True) the Hermitian logarithm of positive definite A, independent of the eigenbasis chosen; each inverts the other.", "quantifier": "every size, every stack length k, every real (or complex) input in exact arithmetic", "why_tests_cant": "An algebraic identity for all sizes and entries; tests check a handful of random matrices up to a tolerance.", "anchors": ["src/pymanopt/tools/multi.py: multiexpm, multilogm"]}
{"id": "C53", "title": "Euclidean manifolds have flat geometry", "statement": "On Euclidean/ComplexEuclidean exp and retraction add, log subtracts, exp(a,log(a,b)) = b, dist is the norm of the log and a metric, pair_mean is equidistant, transport is an isometry, norm squared is the inner product with itself, gradient and Hessian conversion are the identity.", "quantifier": "every size, every stack length k, every real (or complex) input in exact arithmetic", "why_tests_cant": "An algebraic identity for all sizes and entries; tests check a handful of random matrices up to a tolerance.", "anchors": ["src/pymanopt/manifolds/euclidean.py: _Euclidean, Euclidean, ComplexEuclidean"]}
{"id": "C54", "title": "Symmetric and skew-symmetric projections are orthogonal projections", "statement": "projection, Hessian and gradient conversion of Symmetric (SkewSymmetric) return the nearest symmetric (skew-symmetric) matrix stack; exp, log, transport, pair_mean stay in the space.", "quantifier": "every size, every stack length k, every real (or complex) input in exact arithmetic", "why_tests_cant": "An algebraic identity for all sizes and entries; tests check a handful of random matrices up to a tolerance.", "anchors": ["src/pymanopt/manifolds/euclidean.py: Symmetric, SkewSymmetric"]}
{"id": "C55", "title": "to_tangent_space returns a tangent vector on every manifold", "statement": "to_tangent_space(point, vector) always returns an element of the tangent space at point, as its documentation guarantees.", "quantifier": "every size, every stack length k, every real (or complex) input in exact arithmetic", "why_tests_cant": "An algebraic identity for all sizes and entries; tests check a handful of random matrices up to a tolerance.", "anchors": ["src/pymanopt/manifolds/manifold.py: Manifold.to_tangent_space", "src/pymanopt/manifolds/euclidean.py: Symmetric, SkewSymmetric", "src/pymanopt/manifolds/sphere.py: _SphereSubspaceIntersectionManifold", "src/pymanopt/manifolds/positive_definite.py: SpecialHermitianPositiveDefinite", "src/pymanopt/manifolds/psd.py", "src/pymanopt/manifolds/stiefel.py", "src/pymanopt/manifolds/grassmann.py", "src/pymanopt/manifolds/oblique.py", "src/pymanopt/manifolds/complex_circle.py", "src/pymanopt/manifolds/group.py", "src/pymanopt/manifolds/fixed_rank.py"]}
{"id": "C56", "title": "Sphere projection is the orthogonal projection onto the tangent space", "statement": "At every unit-norm point projection is linear, returns vectors orthogonal to the point, fixes tangent vectors, is self-adjoint and returns the nearest tangent vector; transport and gradient conversion therefore give tangent vectors and the Riemannian gradient represents the directional derivative.", "quantifier": "every size, every stack length k, every real (or complex) input in exact arithmetic", "why_tests_cant": "An algebraic identity for all sizes and entries; tests check a handful of random matrices up to a tolerance.", "anchors": ["src/pymanopt/manifolds/sphere.py: _SphereBase.projection, transport"]}
{"id": "C57", "title": "Sphere retraction and exponential stay on the sphere and agree to first order", "statement": "For every point and tangent vector retraction and exp return unit-norm points (never dividing by zero), return the point itself for the zero vector and have the tangent vector as initial velocity.", "quantifier": "every size, every stack length k, every real (or complex) input in exact arithmetic", "why_tests_cant": "An algebraic identity for all sizes and entries; tests check a handful of random matrices up to a tolerance.", "anchors": ["src/pymanopt/manifolds/sphere.py: _SphereBase.retraction, exp"]}
{"id": "C58", "title": "Sphere distance is the geodesic distance", "statement": "dist is symmetric, non-negative, at most pi, zero exactly for equal points, satisfies dist(x, exp(x,v)) = |v| for |v| <= pi, and clamping never changes the value on the manifold.", "quantifier": "every size, every stack length k, every real (or complex) input in exact arithmetic", "why_tests_cant": "An algebraic identity for all sizes and entries; tests check a handful of random matrices up to a tolerance.", "anchors": ["src/pymanopt/manifolds/sphere.py: _SphereBase.dist"]}
{"id": "C59", "title": "Sphere exp inverts log", "statement": "exp(a, log(a,b)) == b for all points a, b, and the norm of log(a,b) is dist(a,b).", "quantifier": "every size, every stack length k, every real (or complex) input in exact arithmetic", "why_tests_cant": "An algebraic identity for all sizes and entries; tests check a handful of random matrices up to a tolerance.", "anchors": ["src/pymanopt/manifolds/sphere.py: _SphereBase.log"]}
{"id": "C60", "title": "Sphere Hessian conversion is the Riemannian Hessian", "statement": "The converted Hessian is tangent, symmetric for the metric when the Euclidean Hessian is, and equals the projection of the derivative of the Riemannian gradient field.", "quantifier": "every size, every stack length k, every real (or complex) input in exact arithmetic", "why_tests_cant": "An algebraic identity for all sizes and entries; tests check a handful of random matrices up to a tolerance.", "anchors": ["src/pymanopt/manifolds/sphere.py: _SphereBase.weingarten", "src/pymanopt/manifolds/manifold.py: RiemannianSubmanifold.euclidean_to_riemannian_hessian"]}
{"id": "C61", "title": "Sphere pair mean is the geodesic midpoint", "statement": "For non-antipodal points pair_mean is a unit-norm point at equal distance to both, half the distance between them.", "quantifier": "every size, every stack length k, every real (or complex) input in exact arithmetic", "why_tests_cant": "An algebraic identity for all sizes and entries; tests check a handful of random matrices up to a tolerance.", "anchors": ["src/pymanopt/manifolds/sphere.py: _SphereBase.pair_mean"]}
{"id": "C62", "title": "Sphere-subspace intersections stay in the subspace", "statement": "For both subspace constructors the stored projector is the orthogonal projector onto the (complement of the) column span; projection returns vectors in the subspace orthogonal to the point and is an orthogonal projection; retraction, exp, pair_mean of points and tangent vectors of the intersection stay in it.", "quantifier": "every size, every stack length k, every real (or complex) input in exact arithmetic", "why_tests_cant": "An algebraic identity for all sizes and entries; tests check a handful of random matrices up to a tolerance.", "anchors": ["src/pymanopt/manifolds/sphere.py: _SphereSubspaceIntersectionManifold, SphereSubspaceIntersection, SphereSubspaceComplementIntersection"]}
{"id": "C63", "title": "Oblique operations act as sphere operations on each column", "statement": "projection, retraction, exp, pair_mean, log, Hessian conversion of Oblique coincide column by column with those of the sphere; results have unit columns resp. are orthogonal to the point's columns; squared distance is the sum of squared column distances.", "quantifier": "every size, every stack length k, every real (or complex) input in exact arithmetic", "why_tests_cant": "An algebraic identity for all sizes and entries; tests check a handful of random matrices up to a tolerance.", "anchors": ["src/pymanopt/manifolds/oblique.py: Oblique"]}
{"id": "C64", "title": "Complex circle projection and retraction are correct", "statement": "projection returns per-entry tangent vectors, is idempotent and self-adjoint for the real inner product; retraction returns unit-modulus entries and fixes the point at zero; the Hessian conversion is tangent and symmetric.", "quantifier": "every size, every stack length k, every real (or complex) input in exact arithmetic", "why_tests_cant": "An algebraic identity for all sizes and entries; tests check a handful of random matrices up to a tolerance.", "anchors": ["src/pymanopt/manifolds/complex_circle.py: ComplexCircle"]}
{"id": "C65", "title": "Complex circle exponential stays on the manifold", "statement": "exp(point, v) has unit modulus entries for every point and tangent vector and exp(point, 0) = point.", "quantifier": "every size, every stack length k, every real (or complex) input in exact arithmetic", "why_tests_cant": "An algebraic identity for all sizes and entries; tests check a handful of random matrices up to a tolerance.", "anchors": ["src/pymanopt/manifolds/complex_circle.py: ComplexCircle.exp"]}
{"id": "C66", "title": "Stiefel projection is the orthogonal projection onto the tangent space", "statement": "At every orthonormal point projection returns Z with X'Z skew, fixes such Z, is linear, self-adjoint, nearest; transport is tangent; the converted gradient represents the directional derivative.", "quantifier": "every size, every stack length k, every real (or complex) input in exact arithmetic", "why_tests_cant": "An algebraic identity for all sizes and entries; tests check a handful of random matrices up to a tolerance.", "anchors": ["src/pymanopt/manifolds/stiefel.py: Stiefel.projection, transport"]}
{"id": "C67", "title": "Stiefel retractions return orthonormal matrices and are retractions", "statement": "QR and polar retraction of any tangent vector return matrices with orthonormal columns, whatever factorisation LAPACK returns; both return the point itself for the zero vector, the polar one has the tangent vector as initial velocity.", "quantifier": "every size, every stack length k, every real (or complex) input in exact arithmetic", "why_tests_cant": "An algebraic identity for all sizes and entries; tests check a handful of random matrices up to a tolerance.", "anchors": ["src/pymanopt/manifolds/stiefel.py: Stiefel._retraction_qr, _retraction_polar", "src/pymanopt/tools/multi.py: multiqr"]}
{"id": "C68", "title": "Stiefel exponential returns orthonormal matrices", "statement": "exp(X, Z) has orthonormal columns for every point X and tangent vector Z and exp(X,0) = X.", "quantifier": "every size, every stack length k, every real (or complex) input in exact arithmetic", "why_tests_cant": "An algebraic identity for all sizes and entries; tests check a handful of random matrices up to a tolerance.", "anchors": ["src/pymanopt/manifolds/stiefel.py: Stiefel.exp"]}
{"id": "C69", "title": "Stiefel Hessian conversion is the Riemannian Hessian", "statement": "The converted Hessian is tangent, symmetric for the metric when the Euclidean Hessian is, and equals the projection of the derivative of the Riemannian gradient field.", "quantifier": "every size, every stack length k, every real (or complex) input in exact arithmetic", "why_tests_cant": "An algebraic identity for all sizes and entries; tests check a handful of random matrices up to a tolerance.", "anchors": ["src/pymanopt/manifolds/stiefel.py: Stiefel.weingarten", "src/pymanopt/manifolds/manifold.py: RiemannianSubmanifold.euclidean_to_riemannian_hessian"]}
{"id": "C70", "title": "Grassmann projection is the orthogonal projection onto the horizontal space", "statement": "For real and complex Grassmannians projection returns Z with X*Z = 0, fixes such Z, is idempotent and self-adjoint; converted gradient and Hessian are horizontal; the Hessian is symmetric when the Euclidean one is and the cost is invariant.", "quantifier": "every size, every stack length k, every real (or complex) input in exact arithmetic", "why_tests_cant": "An algebraic identity for all sizes and entries; tests check a handful of random matrices up to a tolerance.", "anchors": ["src/pymanopt/manifolds/grassmann.py: Grassmann, ComplexGrassmann"]}
{"id": "C71", "title": "Grassmann retraction and exponential return orthonormal representatives of the right subspace", "statement": "retraction and exp return orthonormal matrices; retraction spans the column space of X+Z; exp and retraction at zero return the same subspace.", "quantifier": "every size, every stack length k, every real (or complex) input in exact arithmetic", "why_tests_cant": "An algebraic identity for all sizes and entries; tests check a handful of random matrices up to a tolerance.", "anchors": ["src/pymanopt/manifolds/grassmann.py: retraction, exp"]}
{"id": "C72", "title": "Grassmann distance depends on subspaces only", "statement": "dist is symmetric, non-negative, unchanged when either representative is multiplied by an orthogonal (unitary) matrix, and zero iff the column spaces agree.", "quantifier": "every size, every stack length k, every real (or complex) input in exact arithmetic", "why_tests_cant": "An algebraic identity for all sizes and entries; tests check a handful of random matrices up to a tolerance.", "anchors": ["src/pymanopt/manifolds/grassmann.py: Grassmann.dist, ComplexGrassmann.dist"]}
{"id": "C73", "title": "Grassmann exp inverts log up to the choice of basis", "statement": "log(X,Y) is horizontal and exp(X, log(X,Y)) spans the same subspace as Y whenever Y*X is invertible.", "quantifier": "every size, every stack length k, every real (or complex) input in exact arithmetic", "why_tests_cant": "An algebraic identity for all sizes and entries; tests check a handful of random matrices up to a tolerance.", "anchors": ["src/pymanopt/manifolds/grassmann.py: log, exp"]}
{"id": "C74", "title": "Fixed-rank PSD projection is the orthogonal projection onto horizontal vectors", "statement": "At full-rank points projection returns Z with Y*Z Hermitian, fixes such Z, is self-adjoint and idempotent, independent of how the Lyapunov equation was solved; Hessian conversion and transport are horizontal.", "quantifier": "every size, every stack length k, every real (or complex) input in exact arithmetic", "why_tests_cant": "An algebraic identity for all sizes and entries; tests check a handful of random matrices up to a tolerance.", "anchors": ["src/pymanopt/manifolds/psd.py: _PSDFixedRank.projection, transport, euclidean_to_riemannian_hessian"]}
{"id": "C75", "title": "Fixed-rank PSD log reaches the target matrix", "statement": "exp(A, log(A,B)) represents the same PSD matrix as B, log is horizontal, dist is symmetric and invariant under change of representative.", "quantifier": "every size, every stack length k, every real (or complex) input in exact arithmetic", "why_tests_cant": "An algebraic identity for all sizes and entries; tests check a handful of random matrices up to a tolerance.", "anchors": ["src/pymanopt/manifolds/psd.py: _PSDFixedRank.log, exp, dist"]}
{"id": "C76", "title": "Elliptope operations keep unit rows", "statement": "retraction and random points have unit-norm rows; gradient and Hessian conversions have rows orthogonal to the point's rows.", "quantifier": "every size, every stack length k, every real (or complex) input in exact arithmetic", "why_tests_cant": "An algebraic identity for all sizes and entries; tests check a handful of random matrices up to a tolerance.", "anchors": ["src/pymanopt/manifolds/psd.py: Elliptope"]}
{"id": "C77", "title": "Elliptope projection is a projection onto horizontal vectors", "statement": "projection(Y, H) is row-orthogonal to Y and horizontal (Y'Z symmetric), and applying it twice changes nothing.", "quantifier": "every size, every stack length k, every real (or complex) input in exact arithmetic", "why_tests_cant": "An algebraic identity for all sizes and entries; tests check a handful of random matrices up to a tolerance.", "anchors": ["src/pymanopt/manifolds/psd.py: Elliptope.projection"]}
{"id": "C78", "title": "Positive matrices: exp, log, dist and metric are consistent", "statement": "exp and log are inverse to each other, exp is entrywise positive, dist is a metric equal to the norm of the log, the inner product is positive definite and symmetric.", "quantifier": "every size, every stack length k, every real (or complex) input in exact arithmetic", "why_tests_cant": "An algebraic identity for all sizes and entries; tests check a handful of random matrices up to a tolerance.", "anchors": ["src/pymanopt/manifolds/positive.py: Positive"]}
{"id": "C79", "title": "Positive matrices: retraction is positive and second order", "statement": "retraction of any tangent vector is entrywise positive, returns the point at zero, and agrees with exp up to second order.", "quantifier": "every size, every stack length k, every real (or complex) input in exact arithmetic", "why_tests_cant": "An algebraic identity for all sizes and entries; tests check a handful of random matrices up to a tolerance.", "anchors": ["src/pymanopt/manifolds/positive.py: Positive.retraction"]}
{"id": "C80", "title": "Positive matrices: gradient and Hessian conversion", "statement": "The converted gradient represents the directional derivative in the metric; the converted Hessian is symmetric for the metric when the Euclidean Hessian is and is the second derivative of the cost along geodesics; the parallel transport option is an isometry.", "quantifier": "every size, every stack length k, every real (or complex) input in exact arithmetic", "why_tests_cant": "An algebraic identity for all sizes and entries; tests check a handful of random matrices up to a tolerance.", "anchors": ["src/pymanopt/manifolds/positive.py: euclidean_to_riemannian_gradient, euclidean_to_riemannian_hessian, _parallel_transport"]}
{"id": "C81", "title": "Positive definite metric is an affine-invariant inner product", "statement": "inner_product is symmetric, positive definite on Hermitian matrices, unchanged under congruence, and norm is its square root.", "quantifier": "every size, every stack length k, every real (or complex) input in exact arithmetic", "why_tests_cant": "An algebraic identity for all sizes and entries; tests check a handful of random matrices up to a tolerance.", "anchors": ["src/pymanopt/manifolds/positive_definite.py: _PositiveDefiniteBase.inner_product, norm"]}
{"id": "C82", "title": "Positive definite exp and log are inverse and stay positive definite", "statement": "exp(P,V) is Hermitian positive definite, exp(A, log(A,B)) = B, log(A, exp(A,V)) = V, dist(A,B) is the norm of log(A,B), symmetric; all independent of the factorisations used.", "quantifier": "every size, every stack length k, every real (or complex) input in exact arithmetic", "why_tests_cant": "An algebraic identity for all sizes and entries; tests check a handful of random matrices up to a tolerance.", "anchors": ["src/pymanopt/manifolds/positive_definite.py: _PositiveDefiniteBase.exp, log, dist"]}
{"id": "C83", "title": "Positive definite retraction stays positive definite", "statement": "retraction(P,V) is Hermitian positive definite for every Hermitian V and equals P for V = 0.", "quantifier": "every size, every stack length k, every real (or complex) input in exact arithmetic", "why_tests_cant": "An algebraic identity for all sizes and entries; tests check a handful of random matrices up to a tolerance.", "anchors": ["src/pymanopt/manifolds/positive_definite.py: _PositiveDefiniteBase.retraction"]}
{"id": "C84", "title": "Positive definite gradient and Hessian conversion", "statement": "The converted gradient is Hermitian and represents the directional derivative in the metric; the converted Hessian is Hermitian and symmetric for the metric when the Euclidean Hessian is.", "quantifier": "every size, every stack length k, every real (or complex) input in exact arithmetic", "why_tests_cant": "An algebraic identity for all sizes and entries; tests check a handful of random matrices up to a tolerance.", "anchors": ["src/pymanopt/manifolds/positive_definite.py: euclidean_to_riemannian_gradient, euclidean_to_riemannian_hessian"]}
{"id": "C85", "title": "Random positive definite points are valid", "statement": "random_point of the symmetric, Hermitian and special Hermitian manifolds is Hermitian positive definite (real resp. unit determinant) for all draws.", "quantifier": "every size, every stack length k, every real (or complex) input in exact arithmetic", "why_tests_cant": "An algebraic identity for all sizes and entries; tests check a handful of random matrices up to a tolerance.", "anchors": ["src/pymanopt/manifolds/positive_definite.py: random_point"]}
{"id": "C86", "title": "Special Hermitian positive definite operations keep the determinant at one", "statement": "exp and retraction return positive definite matrices of determinant one, projection and transport return Hermitian Z with tr(P^-1 Z) = 0 and projection is the metric-orthogonal projection; the converted gradient represents the directional derivative.", "quantifier": "every size, every stack length k, every real (or complex) input in exact arithmetic", "why_tests_cant": "An algebraic identity for all sizes and entries; tests check a handful of random matrices up to a tolerance.", "anchors": ["src/pymanopt/manifolds/positive_definite.py: SpecialHermitianPositiveDefinite"]}
{"id": "C87", "title": "Poincare ball operations stay in the ball", "statement": "Moebius addition of points of the open ball stays in it, never divides by zero, has identity 0, inverse -a and left cancellation; exp of any vector, pair_mean and random points stay in the ball.", "quantifier": "every size, every stack length k, every real (or complex) input in exact arithmetic", "why_tests_cant": "An algebraic identity for all sizes and entries; tests check a handful of random matrices up to a tolerance.", "anchors": ["src/pymanopt/manifolds/hyperbolic.py: PoincareBall.mobius_addition, exp, random_point"]}
{"id": "C88", "title": "Poincare ball exp and log are inverse and measure distance", "statement": "exp(a, log(a,b)) = b for a != b, dist is symmetric, zero iff equal, equals the norm of log(a,b) and dist(a, exp(a,v)) = norm(v); pair_mean is equidistant.", "quantifier": "every size, every stack length k, every real (or complex) input in exact arithmetic", "why_tests_cant": "An algebraic identity for all sizes and entries; tests check a handful of random matrices up to a tolerance.", "anchors": ["src/pymanopt/manifolds/hyperbolic.py: PoincareBall.exp, log, dist, pair_mean"]}
{"id": "C89", "title": "Poincare ball log and pair mean are defined for equal points", "statement": "log(a, a) is the zero vector and pair_mean(a, a) is a.", "quantifier": "every size, every stack length k, every real (or complex) input in exact arithmetic", "why_tests_cant": "An algebraic identity for all sizes and entries; tests check a handful of random matrices up to a tolerance.", "anchors": ["src/pymanopt/manifolds/hyperbolic.py: PoincareBall.log, pair_mean"]}
{"id": "C90", "title": "Poincare ball gradient and Hessian conversion", "statement": "The converted gradient represents the directional derivative in the conformal metric; the converted Hessian is symmetric for the metric when the Euclidean Hessian is, and is the covariant derivative of the gradient field of the conformal metric.", "quantifier": "every size, every stack length k, every real (or complex) input in exact arithmetic", "why_tests_cant": "An algebraic identity for all sizes and entries; tests check a handful of random matrices up to a tolerance.", "anchors": ["src/pymanopt/manifolds/hyperbolic.py: PoincareBall.euclidean_to_riemannian_gradient, euclidean_to_riemannian_hessian"]}
{"id": "C91", "title": "Fixed-rank tangent vectors embed isometrically and projection is orthogonal", "statement": "The inner product of represented tangent vectors is the trace inner product of their ambient matrices; projection followed by embedding is the orthogonal projection of the ambient matrix onto the tangent space; low-rank and dense ambient vectors are treated alike; transport is tangent.", "quantifier": "every size, every stack length k, every real (or complex) input in exact arithmetic", "why_tests_cant": "An algebraic identity for all sizes and entries; tests check a handful of random matrices up to a tolerance.", "anchors": ["src/pymanopt/manifolds/fixed_rank.py: FixedRankEmbedded.inner_product, projection, embedding, transport, to_tangent_space"]}
{"id": "C92", "title": "Fixed-rank gradient conversion recovers the projected ambient gradient", "statement": "If a cost depends on the matrix u diag(s) vt only, conversion of its gradient with respect to (u,s,vt) yields the projection of its ambient gradient, whenever the squared singular values are distinct and non-zero.", "quantifier": "every size, every stack length k, every real (or complex) input in exact arithmetic", "why_tests_cant": "An algebraic identity for all sizes and entries; tests check a handful of random matrices up to a tolerance.", "anchors": ["src/pymanopt/manifolds/fixed_rank.py: FixedRankEmbedded.euclidean_to_riemannian_gradient"]}
{"id": "C93", "title": "Fixed-rank retraction returns a valid point", "statement": "retraction returns (U,S,Vt) with orthonormal factors and positive singular values representing the best rank-k approximation of point + tangent vector up to the machine-epsilon shift, whatever QR/SVD LAPACK returns.", "quantifier": "every size, every stack length k, every real (or complex) input in exact arithmetic", "why_tests_cant": "An algebraic identity for all sizes and entries; tests check a handful of random matrices up to a tolerance.", "anchors": ["src/pymanopt/manifolds/fixed_rank.py: FixedRankEmbedded.retraction"]}
{"id": "C94", "title": "Fixed-rank retraction of the zero vector is the point", "statement": "retraction(point, zero_vector) represents the same matrix as point.", "quantifier": "every size, every stack length k, every real (or complex) input in exact arithmetic", "why_tests_cant": "An algebraic identity for all sizes and entries; tests check a handful of random matrices up to a tolerance.", "anchors": ["src/pymanopt/manifolds/fixed_rank.py: FixedRankEmbedded.retraction"]}
{"id": "C95", "title": "Group projection returns Lie algebra elements", "statement": "projection (hence the converted gradient) returns skew-symmetric (SO) resp. skew-Hermitian (U) matrices, the representation of tangent vectors, and represents the orthogonal projection of the ambient vector.", "quantifier": "every size, every stack length k, every real (or complex) input in exact arithmetic", "why_tests_cant": "An algebraic identity for all sizes and entries; tests check a handful of random matrices up to a tolerance.", "anchors": ["src/pymanopt/manifolds/group.py: _UnitaryBase.projection"]}
{"id": "C96", "title": "Group retractions and exponential stay in the group", "statement": "exp, QR and polar retraction return orthogonal (unitary) matrices, of determinant one for the special orthogonal group, and the point itself for the zero vector.", "quantifier": "every size, every stack length k, every real (or complex) input in exact arithmetic", "why_tests_cant": "An algebraic identity for all sizes and entries; tests check a handful of random matrices up to a tolerance.", "anchors": ["src/pymanopt/manifolds/group.py: _UnitaryBase._retraction_qr, _retraction_polar, exp"]}
{"id": "C97", "title": "Group log, distance and pair mean", "statement": "log returns a Lie algebra element, exp(a, log(a,b)) = b for points whose quotient has a skew matrix logarithm, pair_mean is equidistant. dist is the length of the shortest tangent vector that exp maps to b, and log is the only one of that length unless the quotient has the eigenvalue -1.", "quantifier": "every size, every stack length k, every real (or complex) input in exact arithmetic", "why_tests_cant": "An algebraic identity for all sizes and entries; tests check a handful of random matrices up to a tolerance.", "anchors": ["src/pymanopt/manifolds/group.py: _UnitaryBase.log, dist, pair_mean"]}
{"id": "C98", "title": "Group Hessian conversion is the Riemannian Hessian", "statement": "The converted Hessian lies in the Lie algebra and is symmetric for the metric when the Euclidean Hessian is.", "quantifier": "every size, every stack length k, every real (or complex) input in exact arithmetic", "why_tests_cant": "An algebraic identity for all sizes and entries; tests check a handful of random matrices up to a tolerance.", "anchors": ["src/pymanopt/manifolds/group.py: _UnitaryBase.euclidean_to_riemannian_hessian"]}
{"id": "C99", "title": "Random rotations have determinant one", "statement": "SpecialOrthogonalGroup.random_point returns orthogonal matrices with determinant +1 for every draw, every n and k; UnitaryGroup.random_point returns unitary matrices.", "quantifier": "every size, every stack length k, every real (or complex) input in exact arithmetic", "why_tests_cant": "An algebraic identity for all sizes and entries; tests check a handful of random matrices up to a tolerance.", "anchors": ["src/pymanopt/manifolds/group.py: SpecialOrthogonalGroup.random_point, UnitaryGroup.random_point"]}
{"id": "C100", "title": "Reported dimension is the dimension of the tangent space", "statement": "manifold.dim equals the real dimension of the tangent spaces for every manifold class and all parameters.", "quantifier": "every manifold class and all constructor parameters", "why_tests_cant": "An algebraic identity for all sizes and entries; tests check a handful of random matrices up to a tolerance.", "anchors": ["src/pymanopt/manifolds/euclidean.py", "src/pymanopt/manifolds/sphere.py", "src/pymanopt/manifolds/oblique.py", "src/pymanopt/manifolds/stiefel.py", "src/pymanopt/manifolds/grassmann.py", "src/pymanopt/manifolds/psd.py", "src/pymanopt/manifolds/positive.py", "src/pymanopt/manifolds/positive_definite.py", "src/pymanopt/manifolds/hyperbolic.py", "src/pymanopt/manifolds/fixed_rank.py", "src/pymanopt/manifolds/group.py", "src/pymanopt/manifolds/complex_circle.py"]}
{"id": "C101", "title": "Random tangent vectors are unit-norm tangent vectors", "statement": "random_tangent_vector returns a tangent vector of norm one at the given point for every non-degenerate draw.", "quantifier": "every size, every stack length k, every real (or complex) input in exact arithmetic", "why_tests_cant": "An algebraic identity for all sizes and entries; tests check a handful of random matrices up to a tolerance.", "anchors": ["src/pymanopt/manifolds/sphere.py", "src/pymanopt/manifolds/oblique.py", "src/pymanopt/manifolds/stiefel.py", "src/pymanopt/manifolds/grassmann.py", "src/pymanopt/manifolds/positive.py", "src/pymanopt/manifolds/hyperbolic.py", "src/pymanopt/manifolds/group.py", "src/pymanopt/manifolds/euclidean.py", "src/pymanopt/manifolds/product.py"]}
{"id": "C102", "title": "Trust-region subproblem solver returns an exact solution it has found", "statement": "If an inner iteration of the truncated CG solver reaches the exact minimiser of the model inside the trust region, TrustRegions proposes that step (default mininner).", "quantifier": "every problem, radius, gradient, maxinner", "why_tests_cant": "Only visible when a residual vanishes exactly, e.g. for Hessians proportional to the identity.", "anchors": ["src/pymanopt/optimizers/trust_regions.py: TrustRegions._truncated_conjugate_gradient"]}
{"id": "C103", "title": "With use_rand the proposed step stays inside the trust region", "statement": "With use_rand and a random start inside the trust region the step returned by the truncated CG solver has norm at most the radius.", "quantifier": "every start, gradient, self-adjoint Hessian, radius", "why_tests_cant": "Depends on recurrences that are only valid for a zero start; random tests see violations below their tolerance.", "anchors": ["src/pymanopt/optimizers/trust_regions.py: TrustRegions._truncated_conjugate_gradient"]}
{"id": "C104", "title": "Trust-region steps achieve the Cauchy decrease", "statement": "In exact arithmetic with a linear self-adjoint Hessian, zero start and symmetric positive definite preconditioner the model value at the returned step is at most that at every point -t*precon(gradient), t >= 0, inside the trust region.", "quantifier": "every gradient, Hessian, preconditioner, radius, inner iteration count", "why_tests_cant": "Ranges over all inner loop lengths and all comparison points.", "anchors": ["src/pymanopt/optimizers/trust_regions.py: TrustRegions._truncated_conjugate_gradient"]}
{"id": "C105", "title": "Product methods reject arguments with the wrong number of components", "statement": "A method of Product called with a point or tangent vector that does not have one component per factor raises an error.", "quantifier": "every product, every list length", "why_tests_cant": "All lengths of all arguments; tests only pass well-formed lists.", "anchors": ["src/pymanopt/manifolds/product.py: Product"]}
{"id": "C106", "title": "Printing does not change what a run returns", "statement": "For any two values of verbosity the same run of any optimizer has the same outcome (result or exception).", "quantifier": "every optimizer, limit, problem and initial point", "why_tests_cant": "Ranges over whole runs under all limits; tests run with one verbosity.", "anchors": ["src/pymanopt/optimizers/steepest_descent.py: SteepestDescent.run", "src/pymanopt/optimizers/conjugate_gradient.py: ConjugateGradient.run", "src/pymanopt/optimizers/particle_swarm.py: ParticleSwarm.run", "src/pymanopt/optimizers/trust_regions.py: TrustRegions.run", "src/pymanopt/optimizers/nelder_mead.py: NelderMead.run"]}
{"id": "C107", "title": "Complex circle distance, log and pair mean", "statement": "dist is a metric; log(a,b) is a tangent vector whose length is dist(a,b) and whose geodesic ends at b; pair_mean is a point of the manifold equidistant from both.", "quantifier": "every size, every stack length k, every real (or complex) input in exact arithmetic", "why_tests_cant": "An algebraic identity for all sizes and entries; tests check a handful of random matrices up to a tolerance.", "anchors": ["src/pymanopt/manifolds/complex_circle.py: ComplexCircle.dist, log, pair_mean"]}
{"id": "C108", "title": "Random fixed-rank points are valid", "statement": "random_point returns orthonormal factors and descending positive singular values for every positive draw; if no two draws coincide gradients can be converted there.", "quantifier": "every size, every stack length k, every real (or complex) input in exact arithmetic", "why_tests_cant": "An algebraic identity for all sizes and entries; tests check a handful of random matrices up to a tolerance.", "anchors": ["src/pymanopt/manifolds/fixed_rank.py: FixedRankEmbedded.random_point"]}
{"id": "C109", "title": "Optimizers never leave the manifold", "statement": "Started at a point of the manifold, every optimizer evaluates, logs and returns points of the manifold only, and every direction it searches along is a tangent vector at the current point.", "quantifier": "every optimizer, line searcher, beta rule, limit, problem and initial point, on Euclidean, ComplexEuclidean, Symmetric, SkewSymmetric, Sphere, the sphere-subspace intersections, Oblique, ComplexCircle, Positive, PoincareBall, Symmetric-, Hermitian- and SpecialHermitianPositiveDefinite, Stiefel, Grassmann, ComplexGrassmann, Elliptope, SpecialOrthogonalGroup and products of these", "why_tests_cant": "An invariant of whole runs of any length; a drift off the manifold after many iterations is not visible in short runs.", "anchors": ["src/pymanopt/optimizers/steepest_descent.py: SteepestDescent.run", "src/pymanopt/optimizers/conjugate_gradient.py: ConjugateGradient.run", "src/pymanopt/optimizers/trust_regions.py: TrustRegions.run", "src/pymanopt/optimizers/nelder_mead.py: NelderMead.run, compute_centroid", "src/pymanopt/optimizers/particle_swarm.py: ParticleSwarm.run", "src/pymanopt/manifolds/sphere.py", "src/pymanopt/manifolds/stiefel.py", "src/pymanopt/manifolds/grassmann.py", "src/pymanopt/manifolds/group.py", "src/pymanopt/manifolds/product.py"]}
{"id": "C110", "title": "The Riemannian gradient is the gradient of the cost along retractions", "statement": "If the Euclidean gradient of the cost is correct then at every point x and for every tangent vector v the derivative of cost(retraction(x, t v)) at t = 0 is inner_product(x, riemannian_gradient(x), v).", "quantifier": "every manifold, point, tangent vector and differentiable cost", "why_tests_cant": "Ranges over all costs and points; finite differences only sample it.", "anchors": ["src/pymanopt/core/problem.py: Problem.riemannian_gradient", "src/pymanopt/manifolds/*.py: retraction, inner_product, euclidean_to_riemannian_gradient"]}
{"id": "C111", "title": "Line searches succeed along descent directions and steepest descent makes progress", "statement": "If the derivative of the cost along the search direction is negative, then with enough allowed evaluations both line searchers return a point satisfying the sufficient decrease condition; so from any point where the gradient does not vanish steepest descent returns a strictly lower cost.", "quantifier": "every manifold with a correct gradient, differentiable cost, starting point, contraction factor, decrease parameter, limit and clock; sufficient decrease exists for some budget depending on the cost", "why_tests_cant": "Existence of a step for every differentiable cost is a limit argument; tests try a few smooth costs.", "anchors": ["src/pymanopt/optimizers/line_search.py: BackTrackingLineSearcher.search, AdaptiveLineSearcher.search", "src/pymanopt/optimizers/steepest_descent.py: SteepestDescent.run"]}
{"id": "C112", "title": "Steepest descent has a guaranteed rate", "statement": "For a cost whose values along retractions lie below the quadratic model with constant L, a run of steepest descent lowers the cost by at least a constant times the sum of the squared gradient norms, so after K iterations some iterate has squared gradient norm of order (initial cost - final cost)/K.", "quantifier": "every manifold, cost with such a bound, starting point, limit and clock, with the default adaptive line searcher", "why_tests_cant": "A complexity bound for runs of every length.", "anchors": ["src/pymanopt/optimizers/steepest_descent.py: SteepestDescent.run", "src/pymanopt/optimizers/line_search.py: AdaptiveLineSearcher.search"]}
{"id": "C113", "title": "Trust regions makes progress away from critical points", "statement": "From any point where the gradient does not vanish, a proposal computed in a small enough trust region is accepted, lowers the cost and does not shrink the region, whatever the Hessian; so only boundedly many proposals in a row can be rejected, and without regularisation every long enough run returns a strictly lower cost.", "quantifier": "every manifold with a correct gradient, differentiable cost, Hessian, starting point, radius, limit and clock, without use_rand", "why_tests_cant": "A limit argument over all costs and radii, and an invariant of runs of every length.", "anchors": ["src/pymanopt/optimizers/trust_regions.py: TrustRegions.run, TrustRegions._truncated_conjugate_gradient"]}
{"id": "C114", "title": "Trust regions finds a small gradient within a bounded number of iterations", "statement": "For a cost bounded below whose values along retractions lie below a quadratic model with constant L, and a symmetric Hessian of curvature at most B, a run of trust regions with min_gradient_norm e ends after a number of iterations of order (initial cost - lower bound)/e^2 plus a logarithm of the initial radius over the smallest one, and if no other limit ends it earlier the point returned has gradient norm below e.", "quantifier": "every manifold, cost and Hessian with such bounds, starting point, radii, inner iteration limits, rho_prime below 1/4, limit and clock, for runs without use_rand that return", "why_tests_cant": "A complexity bound for runs of every length.", "anchors": ["src/pymanopt/optimizers/trust_regions.py: TrustRegions.run, TrustRegions._truncated_conjugate_gradient", "src/pymanopt/optimizers/optimizer.py: Optimizer._check_stopping_criterion"]}
{"id": "C115", "title": "The trust-region step is a tangent vector in the region at least as good as the Cauchy point", "statement": "On the manifolds listed, the step computed from the gradient by the subproblem solver is a tangent vector whose length is at most the radius, and equal to it when the solver reports having stopped at the boundary, returned with the Hessian at it; the value of the quadratic model there is at most its value at every multiple of the negative gradient inside the region.", "quantifier": "Euclidean, ComplexEuclidean, Symmetric, SkewSymmetric, Sphere, the sphere-subspace intersections, Oblique, ComplexCircle, Positive, PoincareBall, Symmetric- and HermitianPositiveDefinite, Stiefel, Grassmann, ComplexGrassmann, PSDFixedRank, PSDFixedRankComplex, every product of these (with costs that may couple the factors), and SpecialOrthogonalGroup on its own; every cost with a symmetric Euclidean Hessian (on Grassmann manifolds and PSD quotients, one that depends only on the subspace or matrix a point stands for), point, radius and inner iteration limits, without use_rand and with the default preconditioner", "why_tests_cant": "Ranges over all points, Hessians and radii and over inner loops of every length; tests look at single steps.", "anchors": ["src/pymanopt/optimizers/trust_regions.py: TrustRegions._truncated_conjugate_gradient", "src/pymanopt/manifolds/*.py: inner_product, to_tangent_space, euclidean_to_riemannian_hessian"]}
{"id": "C116", "title": "The derivative checks measure the order of the error of the Taylor model", "statement": "check_directional_derivative, check_gradient and check_hessian return the errors of the linear or quadratic model of the cost along the exponential map (the retraction where it is missing) at 51 step sizes from 1e-8 to 1. For a smooth cost these errors are |<grad, d> - D| h up to a multiple of h^2, and with a right gradient |<hess d, d> - S| h^2 / 2 up to a multiple of h^3, where D and S are the true derivatives; so on the logarithmic plot the slope is one or two for a wrong or right gradient, and two or three for a wrong or right Hessian. The model is called exact if and only if all errors are below 1e-12.", "quantifier": "every manifold, cost with the stated smoothness along the curve, gradient and Hessian right or wrong, point and direction", "why_tests_cant": "The claim is about all costs and about the limit of small steps; a test checks one cost.", "anchors": ["src/pymanopt/tools/diagnostics.py: check_directional_derivative, check_gradient, check_hessian"]}
{"id": "C117", "title": "The checks validate their arguments and name what is missing", "statement": "The checks raise ValueError when a tangent vector is given without a point, RuntimeError when matplotlib is missing, draw what was not given, follow the retraction where the exponential map is not implemented, and check_retraction raises RuntimeError where the exponential map, the retraction or the distance is not implemented and otherwise fits the distances between the two maps.", "quantifier": "every manifold, whatever methods it implements, and combination of arguments", "why_tests_cant": "Ranges over all manifolds, including ones not in the library.", "anchors": ["src/pymanopt/tools/diagnostics.py: check_directional_derivative, check_gradient, check_hessian, check_retraction"]}
{"id": "C118", "title": "The checks tell tangent vectors from others and symmetric Hessians from others", "statement": "The residual printed by check_gradient and check_hessian is zero exactly if the gradient, respectively the Hessian applied to the direction, is a tangent vector, and the numbers printed for linearity and symmetry are zero for linear and symmetric Hessians, and only if these properties hold for the vectors drawn.", "quantifier": "every manifold, point, gradient and Hessian, tangent or not", "why_tests_cant": "Tests use gradients that are tangent.", "anchors": ["src/pymanopt/tools/diagnostics.py: check_gradient, check_hessian", "src/pymanopt/manifolds/*.py: to_tangent_space, norm"]}
{"id": "C119", "title": "dist is a metric on every manifold that implements it", "statement": "dist returns exactly one non-negative number for every pair of points; it is zero exactly if the points are equal (represent the same subspace, respectively the same positive semidefinite matrix, where points are represented by many arrays); it is symmetric and satisfies the triangle inequality.", "quantifier": "every manifold class with a dist method, every size and stack height, all points, and products of any number of manifolds", "why_tests_cant": "The triangle inequality for matrix logarithms and principal angles ranges over all triples of points; no identity of the formulas gives it.", "anchors": ["src/pymanopt/manifolds/*.py: dist"]}
{"id": "C120", "title": "typical_dist gives trust regions a valid radius that covers bounded manifolds", "statement": "typical_dist is positive on every manifold of positive dimension, so the default radii of trust regions are positive and the initial one is at most the maximal one; on every bounded manifold that implements dist no two points are further apart than typical_dist; on products it is the root of the sum of squares and inherits both.", "quantifier": "every manifold class, size and stack height, all pairs of points, products of any number of manifolds", "why_tests_cant": "Ranges over all sizes and all pairs of points.", "anchors": ["src/pymanopt/manifolds/*.py: typical_dist, dist", "src/pymanopt/optimizers/trust_regions.py: TrustRegions.run"]}
{"id": "C121", "title": "log is minus the gradient of half the squared distance", "statement": "Along every differentiable curve of points, half the squared distance to a fixed point has the derivative minus the inner product of the logarithm of that point with the velocity, so that descending along logarithms descends the squared distance; on products this follows from the factors.", "quantifier": "every manifold class with dist and log, every size and stack height, every curve, point within the domain of log, and tangent vector", "why_tests_cant": "A statement about derivatives along all curves; tests compare norms of logarithms with distances.", "anchors": ["src/pymanopt/manifolds/*.py: log, dist, inner_product"]}
{"id": "C122", "title": "compute_centroid descends towards the Karcher mean", "statement": "The gradient compute_centroid supplies is the Riemannian gradient of the cost it minimises, half the sum of squared distances to the points; the point it returns costs no more than the random point it starts from; wherever the gradient does not vanish the search strictly decreases the cost given enough contractions; on Euclidean spaces the gradient vanishes exactly at the arithmetic mean, on positive arrays exactly at the geometric mean.", "quantifier": "every manifold with dist and log other than Product (on which compute_centroid raises, C151), any number of points, every starting point within the domain of the logarithms", "why_tests_cant": "Ranges over all configurations of points on all manifolds; a wrong sign or factor still yields some point.", "anchors": ["src/pymanopt/optimizers/nelder_mead.py: compute_centroid", "src/pymanopt/manifolds/*.py: log, dist"]}
{"id": "C123", "title": "All autodiff backends return the same, right Euclidean gradients and Hessians", "statement": "For a cost differentiable at a point, the gradient operator of every backend returns the arrays whose real inner product with each direction is the directional derivative of the cost; for a twice continuously differentiable cost the Hessian operator returns the derivative of that gradient along the direction. Both hold for real and complex arrays and several arguments, so the backends agree, and the Hessian is linear and symmetric.", "quantifier": "every backend (Autograd, JAX, PyTorch, TensorFlow), number and shapes of arguments, real or complex, smooth cost, point and direction", "why_tests_cant": "The backends follow different conventions for conjugation and for costs that ignore arguments; a test compares them for a few costs.", "anchors": ["src/pymanopt/autodiff/backends/_autograd.py: generate_gradient_operator, generate_hessian_operator", "src/pymanopt/autodiff/backends/_jax.py: conjugate_result, generate_hessian_operator", "src/pymanopt/autodiff/backends/_pytorch.py: _sanitize_gradients, generate_gradient_operator, generate_hessian_operator", "src/pymanopt/autodiff/backends/_tensorflow.py: generate_gradient_operator, generate_hessian_operator"]}
{"id": "C124", "title": "Derivatives with respect to arguments the cost ignores are zero arrays", "statement": "If the cost does not depend on one of its arguments, the gradient and Hessian operators of every backend return a zero array in its place, not None, and do not raise.", "quantifier": "every backend, cost, subset of ignored arguments, point and direction", "why_tests_cant": "Ranges over all costs and argument subsets.", "anchors": ["src/pymanopt/autodiff/backends/_pytorch.py: _sanitize_gradient, generate_hessian_operator", "src/pymanopt/autodiff/backends/_tensorflow.py: generate_gradient_operator, generate_hessian_operator"]}
{"id": "C125", "title": "The test helpers derived from a projection agree with the manifolds", "statement": "On manifolds embedded in a Euclidean space, euclidean_to_riemannian_gradient and euclidean_to_riemannian_hessian of tools/testing.py, which differentiate the projection with respect to the point, return what the methods of the same name of the manifold return.", "quantifier": "Euclidean spaces, symmetric and skew-symmetric matrices, spheres, spheres cut by a subspace, oblique, Stiefel and Grassmann manifolds; every size, stack height, point, tangent vector, Euclidean gradient and Hessian", "why_tests_cant": "The test suite compares them at a few random points.", "anchors": ["src/pymanopt/tools/testing.py: riemannian_gradient, euclidean_to_riemannian_gradient, euclidean_to_riemannian_hessian", "src/pymanopt/manifolds/*.py: euclidean_to_riemannian_hessian"]}
{"id": "C126", "title": "The quadratic model of trust regions is accurate to second order", "statement": "If G and H are the Euclidean gradient and Hessian (in the direction of a tangent vector v) of a cost at a point x, then the cost at exp(x, t v) is f(x) + t <grad, v> + t^2/2 <Hess v, v> + o(t^2), where grad and Hess v are the results of the conversions of the manifold; the same holds for the retractions, so that near a point the model minimised by the trust region method predicts the change of the cost.", "quantifier": "every manifold with euclidean_to_riemannian_hessian, and every product of them without factors SpecialOrthogonalGroup and UnitaryGroup; every size and stack height, every cost with second order expansion (on products coupling the factors in any way), point and tangent vector", "why_tests_cant": "An asymptotic statement over all costs, points and directions; the numerical slope test samples one direction.", "anchors": ["src/pymanopt/manifolds/*.py: euclidean_to_riemannian_hessian, euclidean_to_riemannian_gradient, exp, retraction, inner_product", "src/pymanopt/optimizers/trust_regions.py: TrustRegions.run"]}
{"id": "C127", "title": "Costs with Lipschitz gradients meet the hypotheses of the rate guarantees on embedded manifolds", "statement": "If the Euclidean gradient of a cost is Lipschitz with constant L and bounded by G on the manifold, then along the retraction of an embedded manifold the cost exceeds its linear model by at most (a^2 L + 2 b G)/2 times the squared norm of the tangent vector, and the Riemannian Hessian is at most L + c G, with explicit a, b, c for every manifold; so steepest descent and trust regions have the stated rates (C112, C114) on them with known constants.", "quantifier": "Euclidean spaces, symmetric and skew-symmetric matrices, spheres, spheres cut by a subspace, oblique, complex circle, Stiefel (QR and polar), Grassmann, special orthogonal group (QR and polar) and finite products of them; every size, every such cost, every point and tangent vector of any length", "why_tests_cant": "A bound over all costs, points and step lengths, including long steps where the retraction is far from the straight line.", "anchors": ["src/pymanopt/manifolds/*.py: retraction, euclidean_to_riemannian_gradient, euclidean_to_riemannian_hessian, inner_product, norm", "src/pymanopt/optimizers/steepest_descent.py: SteepestDescent.run", "src/pymanopt/optimizers/trust_regions.py: TrustRegions.run"]}
{"id": "C128", "title": "Derivatives written out by hand in the examples are those of their costs", "statement": "For every example that supplies its own Euclidean gradient or Hessian for the NumPy backend, the gradient paired with any direction is the directional derivative of the cost at any point, and the Hessian applied to a direction is the derivative of the gradient along it.", "quantifier": "every example with hand-written derivatives, every size, data matrix of the kind the example draws (symmetric or Hermitian where the example symmetrises), point and direction", "why_tests_cant": "The examples are only run, on random data; an error in a derivative slows convergence down but raises nothing.", "anchors": ["examples/dominant_eigenvector.py: create_cost_and_derivates", "examples/dominant_invariant_subspace.py: create_cost_and_derivates", "examples/low_rank_matrix_approximation.py: create_cost_and_derivates", "examples/low_rank_psd_matrix_approximation.py: create_cost_and_derivates", "examples/pca.py: create_cost_and_derivates", "examples/rank_k_correlation_matrix_approximation.py: create_cost_and_derivates", "examples/optimal_rotations.py: create_cost_and_derivates"]}
{"id": "C129", "title": "An example minimises the same cost whichever backend is chosen", "statement": "The cost functions an example defines for its different backends have the same value at every point; the smooth maximum of the packing example lies between the largest inner product of two different points and that value plus epsilon times the logarithm of the number of pairs.", "quantifier": "every example, backend, size, data and point", "why_tests_cant": "Each backend has its own spelling of the cost; a run on one backend says nothing about another.", "anchors": ["examples/dominant_eigenvector.py: create_cost_and_derivates", "examples/pca.py: create_cost_and_derivates", "examples/packing_on_the_sphere.py: create_cost"]}
{"id": "C130", "title": "The closed-form solutions the examples compare with are minimisers of their costs", "statement": "The reference solutions computed by the examples (dominant eigenvector, dominant subspace, principal components, normalised columns, pseudoinverse, truncated singular value decomposition, closest rotations) are feasible and no feasible point has a smaller cost; for different eigenvalues, nonzero columns and independent samples they are the only minimisers up to the choice of sign or basis.", "quantifier": "every size, data (symmetric or Hermitian where the example symmetrises), and whatever factors the eigenvalue or singular value decomposition returns", "why_tests_cant": "The examples print a distance to the reference for one random matrix; whether the reference is optimal for every matrix is a theorem about all feasible points.", "anchors": ["examples/dominant_eigenvector.py: run", "examples/dominant_invariant_subspace.py: run", "examples/dominant_invariant_complex_subspace.py: run", "examples/pca.py: run", "examples/closest_unit_norm_column_approximation.py: run", "examples/multiple_linear_regression.py: run", "examples/low_rank_matrix_approximation.py: run", "examples/optimal_rotations.py: compute_optimal_solution"]}
{"id": "C131", "title": "Steepest descent reaches a small gradient within a bounded number of iterations", "statement": "If the cost is bounded below and its increase along the negative gradient has a quadratic bound, a run of steepest descent with the default or the adaptive line searcher and minimal gradient norm e ends within (f0 - fmin)/d + 1 iterations for an explicit d > 0, provided the line searcher may contract often enough; unless time, iterations or the minimal step size end it earlier, the gradient norm it reports is below e and the returned point costs no more than the point that gradient belongs to.", "quantifier": "every manifold, such cost, starting point, threshold, and parameters of the two line searchers with sufficient decrease and contraction factor in (0, 1)", "why_tests_cant": "A bound on the number of iterations over all costs and starting points.", "anchors": ["src/pymanopt/optimizers/steepest_descent.py: SteepestDescent.run", "src/pymanopt/optimizers/line_search.py: BackTrackingLineSearcher.search, AdaptiveLineSearcher.search"]}
{"id": "C132", "title": "Runs of the examples return near-critical points", "statement": "dominant_eigenvector.py ends within 10^5 (L/e)^2 + 1 iterations at a point whose Rayleigh quotient is at least an eigenvalue minus e/2; multiple_linear_regression.py returns weights within e/(2m) of the least squares solution, m being the least eigenvalue of the Gram matrix; dominant_invariant_subspace.py and its complex version return a subspace invariant up to a residual of e/2; all within explicit numbers of iterations, unless a limit set by the user ends the run earlier.", "quantifier": "every size, matrix or data with norm at most L, starting point, and threshold e", "why_tests_cant": "End to end over all data and starting points, through the line searches, the trust region subproblems and the geometry.", "anchors": ["examples/dominant_eigenvector.py: run", "examples/multiple_linear_regression.py: run", "examples/dominant_invariant_subspace.py: run", "examples/dominant_invariant_complex_subspace.py: run"]}
{"id": "C133", "title": "Runs depend on the problem only up to isomorphism", "statement": "If two problems correspond under maps of points and tangent vectors that respect cost, gradient, Hessian, metric, retraction, transport and vector arithmetic, then a run of any optimizer from the corresponding starting point on one is, step by step, the image of a run on the other: the same exceptions, stopping reason, iterations, costs, gradient norms and step sizes, and corresponding points.", "quantifier": "every pair of such problems, optimizer (steepest descent, conjugate gradient with every beta rule, trust regions, Nelder-Mead, particle swarm), line searcher, parameters, clock and starting point", "why_tests_cant": "Relates two runs for all problems; no finite set of runs shows that an optimizer looks at a point only through the manifold's methods.", "anchors": ["src/pymanopt/optimizers/steepest_descent.py: SteepestDescent.run", "src/pymanopt/optimizers/conjugate_gradient.py: ConjugateGradient.run", "src/pymanopt/optimizers/trust_regions.py: TrustRegions.run", "src/pymanopt/optimizers/nelder_mead.py: NelderMead.run, compute_centroid", "src/pymanopt/optimizers/particle_swarm.py: ParticleSwarm.run", "src/pymanopt/optimizers/line_search.py: BackTrackingLineSearcher.search, AdaptiveLineSearcher.search"]}
{"id": "C134", "title": "Results do not depend on the choice of coordinates or representatives", "statement": "Orthogonal changes of coordinates (and, for positive definite matrices and positive arrays, congruences and rescalings) commute with the operations of the manifolds. So rotating the data of a problem together with the starting point rotates all iterates and changes no number; and on Grassmann, fixed-rank, fixed-rank positive semidefinite and elliptope manifolds, two bases or factors of the same starting point lead to runs through the same subspaces or matrices, if the cost depends only on those.", "quantifier": "every such change of coordinates, on every manifold (on FixedRankEmbedded, if LAPACK chooses corresponding factors, which it may, and the singular values of the start are distinct), cost with a Euclidean gradient and Hessian, gradient-based optimizer, parameters, and starting point", "why_tests_cant": "A relation between runs for all costs, rotations and representatives; a test can compare only a few.", "anchors": ["src/pymanopt/manifolds/grassmann.py: Grassmann, ComplexGrassmann", "src/pymanopt/manifolds/psd.py: PSDFixedRank, PSDFixedRankComplex, Elliptope", "src/pymanopt/manifolds/sphere.py: Sphere", "src/pymanopt/manifolds/stiefel.py: Stiefel", "src/pymanopt/manifolds/positive_definite.py: SymmetricPositiveDefinite, HermitianPositiveDefinite", "src/pymanopt/manifolds/product.py: Product", "examples/dominant_eigenvector.py: run", "examples/dominant_invariant_subspace.py: run", "examples/low_rank_psd_matrix_approximation.py: run", "examples/packing_on_the_sphere.py: run"]}
{"id": "C135", "title": "The number of cost evaluations of a run is bounded in advance", "statement": "Whatever the cost does, a run of steepest descent or conjugate gradient evaluates it at most once per iteration, plus the line searcher's max_iterations + 1 per search, plus one; trust regions exactly once per iteration plus one; Nelder-Mead at most dim + 2 times per iteration, and it exceeds max_cost_evaluations by at most dim + 2; particle swarm exactly once per particle and iteration, exceeding max_cost_evaluations by less than a population; compute_centroid makes at most 15 iterations and 406 evaluations.", "quantifier": "every manifold, cost, starting point, clock and parameters", "why_tests_cant": "A bound for all costs; a test sees the counts of the runs it makes.", "anchors": ["src/pymanopt/optimizers/steepest_descent.py: SteepestDescent.run", "src/pymanopt/optimizers/conjugate_gradient.py: ConjugateGradient.run", "src/pymanopt/optimizers/trust_regions.py: TrustRegions.run", "src/pymanopt/optimizers/nelder_mead.py: NelderMead.run, compute_centroid", "src/pymanopt/optimizers/particle_swarm.py: ParticleSwarm.run"]}
{"id": "C136", "title": "The mixture of Gaussians notebook fits the mixture by maximum likelihood", "statement": "For every mixture (means, positive definite covariances, positive probabilities with sum one) there is a point (S, v) from which the notebook reads off exactly these parameters and whose cost is the negative log likelihood of the samples plus a constant. A point is a minimiser, or a local minimiser, of the cost if and only if the lower right entry of every S is one and the parameters read off are a minimiser, or local minimiser, of the negative log likelihood. With two components or more the cost is unbounded below, since one component can collapse onto a sample.", "quantifier": "every dimension, number of components and nonempty list of samples; every point of the manifold", "why_tests_cant": "Equality of the minima of two functions over a continuum; a run only ends near one of them.", "anchors": ["examples/notebooks/mixture_of_gaussians.py: cost, mu1hat, Sigma1hat, pihat"]}
{"id": "C137", "title": "The cost of the mixture of Gaussians notebook is geodesically convex", "statement": "Along every geodesic of the product manifold the cost of the notebook is convex, as its text says.", "quantifier": "every geodesic, list of samples and number of components", "why_tests_cant": "Convexity along all geodesics.", "anchors": ["examples/notebooks/mixture_of_gaussians.py: cost", "src/pymanopt/manifolds/positive_definite.py: SymmetricPositiveDefinite.exp"]}
{"id": "C138", "title": "The line search of the mixture of Gaussians notebook is back-tracking that survives singular matrices", "statement": "As long as the objective does not raise LinAlgError, LineSearchMoG.search returns what BackTrackingLineSearcher.search returns; it always makes at most max_iterations + 2 evaluations and returns a point on the manifold; the returned point does not have a higher cost, and the caller's point is left alone.", "quantifier": "every objective, point, direction, parameters and random replacement", "why_tests_cant": "A refinement between two loops for all objectives; failures of np.linalg.solve are rare events in a test.", "anchors": ["examples/notebooks/mixture_of_gaussians.py: LineSearchMoG.search, LineSearchMoG._newxnewf", "src/pymanopt/optimizers/line_search.py: BackTrackingLineSearcher.search"]}
{"id": "C139", "title": "Verbosity decides what is printed", "statement": "With verbosity 0 an optimizer prints nothing; with verbosity 1 only the opening line and the reason for stopping; with verbosity 2 also one row per iteration of steepest descent and conjugate gradient, numbered from 1, with the cost and gradient norm of that iteration, one row per iteration of the other optimizers, and one line per move of Nelder-Mead. From verbosity 3 on trust regions with use_rand says that it used the Cauchy point exactly in the iterations in which the Cauchy point has a smaller model value than the step of the inner solver. The output is determined by the run and does not change it.", "quantifier": "every optimizer, verbosity, problem, parameters, starting point and clock; runs that return and runs that raise", "why_tests_cant": "The text goes to a stream the tests do not look at, and its length and content vary with the run.", "anchors": ["src/pymanopt/optimizers/steepest_descent.py: SteepestDescent.run", "src/pymanopt/optimizers/conjugate_gradient.py: ConjugateGradient.run", "src/pymanopt/optimizers/trust_regions.py: TrustRegions.run", "src/pymanopt/optimizers/nelder_mead.py: NelderMead.run", "src/pymanopt/optimizers/particle_swarm.py: ParticleSwarm.run"]}
{"id": "C140", "title": "The best cost printed is the best cost found so far", "statement": "The best cost in a row printed by particle swarm is the least cost among the evaluations counted in that row, and the best cost in a row printed by Nelder-Mead is the least cost among the vertices of the simplex at that time.", "quantifier": "every problem without NaN costs, parameters, starting simplex or population, random draws and clock", "why_tests_cant": "Relates every printed row to all evaluations before it, over all runs.", "anchors": ["src/pymanopt/optimizers/particle_swarm.py: ParticleSwarm.run", "src/pymanopt/optimizers/nelder_mead.py: NelderMead.run"]}
{"id": "C141", "title": "The random start of the trust-region subproblem lies in the trust region", "statement": "With use_rand and a positive radius, the loop that scales the random tangent vector ends; its result is the drawn vector times 1e-6 * 2^(-13 n) for the least n for which this lies in the trust region, a tangent vector no longer than a millionth of the draw.", "quantifier": "every manifold with a homogeneous norm, point, draw and positive radius", "why_tests_cant": "Termination of a loop for all radii and draws.", "anchors": ["src/pymanopt/optimizers/trust_regions.py: TrustRegions.run"]}
{"id": "C142", "title": "Trust regions warns about the fifth consecutive change of the radius", "statement": "With verbosity 2 or more, trust regions prints one row per completed iteration marked with the change of the radius (decreased, increased or unchanged), and the marks agree with the logged radii. A warning about many decreases (increases) stands directly before the fifth consecutive decrease (increase) of each streak and nowhere else.", "quantifier": "every problem, parameters, starting point, clock and random draws; runs that return and runs that raise", "why_tests_cant": "Relates the whole text of a run to the whole history of radii.", "anchors": ["src/pymanopt/optimizers/trust_regions.py: TrustRegions.run"]}
{"id": "C143", "title": "Distances and logarithms give numbers despite rounding errors", "statement": "dist(x, y) and log(x, y) never give NaN or infinity because points that lie on the manifold up to rounding, or the inner products computed from them, fall slightly outside the domain of arccos, arccosh, arctanh, sqrt or a division.", "quantifier": "every arithmetic with correct signs (in particular binary64), every pair of arrays, of any size", "why_tests_cant": "Rounding errors depend on the numbers; whether an inner product of a unit vector with itself comes out above 1 varies from vector to vector.", "anchors": ["src/pymanopt/manifolds/sphere.py: _SphereBase.dist, log", "src/pymanopt/manifolds/oblique.py: Oblique.dist, log", "src/pymanopt/manifolds/complex_circle.py: ComplexCircle.dist, log", "src/pymanopt/manifolds/grassmann.py: Grassmann.dist, ComplexGrassmann.dist", "src/pymanopt/manifolds/hyperbolic.py: PoincareBall.dist, log", "src/pymanopt/manifolds/positive.py: Positive.dist, log"]}
{"id": "C144", "title": "Rounding errors do not drive iterates off the manifold", "statement": "With operations that have small relative errors, as in IEEE double precision, retractions, midpoints and random points of spheres, oblique manifolds, elliptopes and complex circles are of norm one up to an error that depends only on the length of the vectors, whatever the error of the arguments; for binary64 the squared norm of a vector with n entries is wrong by at most (n + 3) / 2**51. Retractions of positive arrays are positive; symmetric and skew-symmetric parts are exactly symmetric and skew-symmetric; retractions in the Poincare ball stay in the ball. So all points evaluated, logged and returned by any optimizer satisfy these bounds (or are NaN), however long the run.", "quantifier": "every arithmetic with relative errors, point, tangent vector, and run of every optimizer with every cost and gradient", "why_tests_cant": "The bound holds after any number of steps; a test runs a few iterations and compares with a tolerance.", "anchors": ["src/pymanopt/manifolds/sphere.py: Sphere.retraction, Sphere.pair_mean, Sphere.random_point", "src/pymanopt/manifolds/oblique.py: Oblique.retraction, Oblique.random_point", "src/pymanopt/manifolds/complex_circle.py: ComplexCircle.retraction", "src/pymanopt/manifolds/positive.py: Positive.retraction", "src/pymanopt/manifolds/hyperbolic.py: PoincareBall.retraction", "src/pymanopt/tools/multi.py: multisym, multiskew"]}
{"id": "C145", "title": "Trust regions solves its subproblem by conjugate gradients in at most dim steps", "statement": "In exact arithmetic, with a linear symmetric Hessian and zero start: the step returned by the inner solver lies in the Krylov space generated by as many Hessian products as were spent; a step that was not cut off at the boundary is the only minimiser of the quadratic model over that space. The solver spends at most as many Hessian products as the tangent space has dimensions, never reports an increase of the model, never runs into the default limit of inner iterations, and when it reports the target the residual of the Newton equation is at most |g| min(|g|^theta, kappa). If the Hessian is positive definite and the Newton step lies in the region, maxinner is at least the dimension, and mininner is not positive (or has the default value 1 and the first inner iteration does not solve the Newton equation exactly), it returns the Newton step to this accuracy (exactly with kappa = 0). A larger radius never gives a worse model value or a shorter step, and leaves interior steps as they are.", "quantifier": "every finite-dimensional tangent space, symmetric Hessian of any definiteness, symmetric positive definite preconditioner, gradient, radius and parameters", "why_tests_cant": "Optimality over a subspace and termination after dim steps are statements about all Hessians of all dimensions; tests compare a few final costs.", "anchors": ["src/pymanopt/optimizers/trust_regions.py: TrustRegions._truncated_conjugate_gradient"]}
{"id": "C146", "title": "Trust regions converges superlinearly to nondegenerate minimisers", "statement": "Near a nondegenerate minimiser with a Hessian that does not change too fast, and without use_rand, every iteration of trust regions accepts its step, the radius is never reduced, and iterates do not leave the neighbourhood. Once the radius exceeds 2/mu times the gradient norm n, the gradient norms satisfy A n_k^tau <= (A n_0^tau)^((1 + tau)^k) with tau = min(theta, 1): with the default theta = 1 convergence is quadratic. From any radius, the run ends after a number of iterations that is doubly logarithmic in the minimal gradient norm, plus a constant. In particular started close enough to the dominant eigenvector, the run for the eigenvector example returns a point whose angle to the eigenvector is at most 4/3 of the minimal gradient norm over the spectral gap.", "quantifier": "every problem on every manifold with such a neighbourhood, starting point in it, radius, parameters theta, kappa and rho_prime < 1/4, and clock; all matrices with a simple lowest eigenvalue; all costs on Euclidean space with Lipschitz Hessian", "why_tests_cant": "Rates of convergence quantify over all iterations and all problems; a test sees the final cost.", "anchors": ["src/pymanopt/optimizers/trust_regions.py: TrustRegions.run, TrustRegions._truncated_conjugate_gradient", "src/pymanopt/manifolds/sphere.py: Sphere.retraction, Sphere.euclidean_to_riemannian_hessian", "examples/dominant_eigenvector.py: cost"]}
{"id": "C147", "title": "Steepest descent converges linearly where the gradient dominates the cost", "statement": "If the cost has a quadratic upper bound along the gradient with constant L and the squared gradient norm is at least 2 mu times the distance of the cost to its minimum, then with either line searcher every iteration of steepest descent reduces this distance by a factor 1 - q, with q explicit in mu, L and the parameters of the line searcher. The number of iterations is at most logarithmic in the minimal gradient norm eps, and unless another limit ends the run earlier the cost of the result is within eps^2 / (2 mu) of the minimum. This applies to strongly convex costs, to linear regression with any samples, and to eigenvectors from every start whose Rayleigh quotient is below the second eigenvalue.", "quantifier": "every problem on every manifold with such constants, starting point, clock and line searcher parameters in range; all matrices with a simple lowest eigenvalue, all samples and targets", "why_tests_cant": "A rate is a statement about all iterations of all runs; a test sees the final cost of a few.", "anchors": ["src/pymanopt/optimizers/steepest_descent.py: SteepestDescent.run", "src/pymanopt/optimizers/line_search.py: BackTrackingLineSearcher.search, AdaptiveLineSearcher.search", "examples/dominant_eigenvector.py: cost", "examples/multiple_linear_regression.py: cost"]}
{"id": "C148", "title": "transport is a vector transport, and what it does to lengths", "statement": "For tangent vectors at a point x of the manifold, transport(x, y, .) returns tangent vectors at y, is linear, and returns its argument when y = x. On the sphere, its intersections with subspaces, the oblique manifold, complex circles, Stiefel, real and complex Grassmann, fixed-rank and fixed-rank semidefinite matrices no vector becomes longer and transport(y, x, .) is the adjoint of transport(x, y, .). On Euclidean spaces, symmetric and skew-symmetric matrices, the special orthogonal and unitary groups and Positive with parallel transport it preserves all inner products and does not depend on the points visited on the way. On Positive without parallel transport and on positive definite matrices it can make vectors longer by any factor. Products inherit each of these properties from their factors.", "quantifier": "all pairs of points of the manifold, all tangent vectors, all shapes", "why_tests_cant": "Tests transport a few random vectors between random points; the statement is about all of them and includes the failure of boundedness on two manifolds.", "anchors": ["src/pymanopt/manifolds/sphere.py: transport", "src/pymanopt/manifolds/fixed_rank.py: FixedRankEmbedded.transport", "src/pymanopt/manifolds/psd.py: transport", "src/pymanopt/manifolds/positive.py: Positive.transport", "src/pymanopt/manifolds/positive_definite.py: transport", "src/pymanopt/manifolds/product.py: Product.transport"]}
{"id": "C149", "title": "Conjugate gradient with an exact line search solves quadratic problems in finitely many steps, whatever the rule for beta", "statement": "ConjugateGradient with a line searcher that finds the minimiser along every descent direction, on a problem over a Euclidean space whose cost is a strictly convex quadratic function, optionally with a linear symmetric positive definite preconditioner: all five beta rules and all positive orth_value give the same run; the point returned after k+1 iterations minimises the cost over the starting point plus the k-dimensional Krylov space of preconditioned gradients; the run makes at most as many iterations as the space has dimensions (and at least one), and unless time, step size or number of iterations stop it, ends with the gradient norm below min_gradient_norm. It fails only by dividing by zero, in the step after which the minimiser itself has been found.", "quantifier": "every finite-dimensional space, inner product, strictly convex quadratic cost, preconditioner, starting point, beta rule, positive orth_value and min_gradient_norm, line searcher that is exact, clock", "why_tests_cant": "The identities between gradients and directions must hold for all steps and dimensions; rounding destroys them in any concrete run.", "anchors": ["src/pymanopt/optimizers/conjugate_gradient.py: ConjugateGradient.run", "src/pymanopt/optimizers/conjugate_gradient.py: _beta_fletcher_reeves, _beta_polak_ribiere, _beta_hestenes_stiefel, _beta_hager_zhang, _beta_liu_storey", "src/pymanopt/manifolds/euclidean.py: Euclidean"]}
{"id": "C150", "title": "Exceptions raised by the user's functions or by missing methods of the manifold end the run unchanged, and leave the optimizer usable", "statement": "If the cost, gradient, Hessian, preconditioner, a method of the manifold or an operation on tangent vectors raises, then a run of any optimizer either ends with that very exception or gives exactly what it would give had the operation returned anything at all at the arguments where it raises: no exception is swallowed, replaced or turned into a result. A run that returns therefore never reached a raising call. An optimizer that needs an operation the manifold does not provide never returns a result unless it stops before the first use, and those that do not need it are unaffected: steepest descent runs without transport, log and Hessian; Nelder-Mead and particle swarm run without gradients. After an exception or an interrupt the optimizer object can be used again, and the next run is the run of an object with the configuration given and a line searcher memory left by some earlier search.", "quantifier": "every problem with operations that may raise at any arguments, every optimizer, starting point, parameters, clock, random draws, and history of runs including failed ones", "why_tests_cant": "The point at which a user's function fails is not known in advance: it may be any call of any iteration. Tests raise at the first call, if at all.", "anchors": ["src/pymanopt/optimizers/steepest_descent.py: SteepestDescent.run", "src/pymanopt/optimizers/conjugate_gradient.py: ConjugateGradient.run, _beta_hestenes_stiefel", "src/pymanopt/optimizers/trust_regions.py: TrustRegions.run, TrustRegions._truncated_conjugate_gradient", "src/pymanopt/optimizers/particle_swarm.py: ParticleSwarm.run", "src/pymanopt/optimizers/nelder_mead.py: NelderMead.run, compute_centroid", "src/pymanopt/optimizers/line_search.py: BackTrackingLineSearcher.search, AdaptiveLineSearcher.search", "src/pymanopt/manifolds/manifold.py: raise_not_implemented_error"]}
{"id": "C151", "title": "A Riemannian gradient supplied by the user fails on product manifolds, and so does Nelder-Mead", "statement": "On a Product manifold, a run of SteepestDescent, or of ConjugateGradient or TrustRegions without a preconditioner, whose problem has a riemannian_gradient supplied by the user never returns: for every cost, gradient, starting point and configuration it ends with an exception, a TypeError if cost, gradient and norm can be computed at the starting point. NelderMead, which computes its centroids in this way, ends with an exception in its first iteration, unless its first check of the limits stops it; the result is then a vertex of the initial simplex.", "quantifier": "every product manifold, cost, gradient function, starting point, line searcher, limits, clock, initial simplex, and random starting points of the centroids", "why_tests_cant": "The failure must be shown for all products and functions; a test on one product could be read as a mistake in the test.", "anchors": ["src/pymanopt/core/problem.py: Problem._wrap_gradient_operator, Problem._group_return_values", "src/pymanopt/optimizers/nelder_mead.py: compute_centroid, NelderMead.run", "src/pymanopt/manifolds/product.py: _ProductTangentVector", "src/pymanopt/optimizers/steepest_descent.py: SteepestDescent.run", "src/pymanopt/optimizers/conjugate_gradient.py: ConjugateGradient.run", "src/pymanopt/optimizers/trust_regions.py: TrustRegions._truncated_conjugate_gradient"]}
{"id": "C152", "title": "Which optimizers can be used on which manifolds", "statement": "A public manifold class raises NotImplementedError for the methods of an explicit table and for no others: dist, log and pair_mean on Stiefel; these, exp and the conversion of Hessians on FixedRankEmbedded; dist, exp, log and pair_mean on Elliptope; transport on PoincareBall; pair_mean on Positive, the positive definite, Grassmann and PSD classes; the conversion of Hessians on SpecialHermitianPositiveDefinite. Hence SteepestDescent runs on all of them, TrustRegions on all for which a Riemannian Hessian is available, ConjugateGradient on all but PoincareBall, ParticleSwarm on all but Stiefel, FixedRankEmbedded, Elliptope and PoincareBall; NelderMead on those that have midpoints, and on the other ones with logarithms as long as it does not shrink the simplex. In the other combinations a run only returns if its first check stops it. The exponential map of Elliptope raises although a mixin provides a replacement. A Product raises NotImplementedError for none of the methods that all its factors implement; for the other methods it never returns when called with one component for each factor. Hence SteepestDescent, TrustRegions with a Riemannian Hessian, ConjugateGradient and ParticleSwarm run on the products of manifolds on which they run, provided that the arithmetic on points and tangent vectors returns (compare C151), and the last two on no other products; NelderMead runs on no product with a factor Stiefel, FixedRankEmbedded or Elliptope.", "quantifier": "every public manifold class and every product of them; every method, through inheritance, aliases and super(), for products the methods passed on to the factors; every problem, starting point and configuration of every optimizer", "why_tests_cant": "Tests run the optimizers on a few manifolds; a missing method shows up only on the branch that calls it.", "anchors": ["src/pymanopt/manifolds/manifold.py: raise_not_implemented_error, Manifold, RiemannianSubmanifold, RetrAsExpMixin", "src/pymanopt/manifolds/*.py: all classes", "src/pymanopt/manifolds/product.py: Product._dispatch", "src/pymanopt/optimizers/*.py: run"]}
{"id": "C153", "title": "How fast conjugate gradient with an exact line search minimises a quadratic function", "statement": "ConjugateGradient with a line searcher that finds the minimiser along every descent direction, on a problem over a Euclidean space whose cost is a strictly convex quadratic function with a linear symmetric positive definite preconditioner (or none), where the eigenvalues of the preconditioned Hessian lie between a > 0 and b: the cost of the point returned after k+1 iterations exceeds the minimum by at most 4 ((sqrt b - sqrt a)/(sqrt b + sqrt a))^(2k) times the excess at the start. A run of more than one iteration makes at most 2 + sqrt(b/a)/4 * log(8 c E / eps^2) of them, with E the excess of the cost at the start, eps = min_gradient_norm and c a bound for the Hessian, independently of the dimension; and at most as many as the preconditioned Hessian has different eigenvalues (and at least one). SteepestDescent with the same line search multiplies the excess by at most ((b-a)/(b+a))^2 in every iteration, where a and b bound the Hessian.", "quantifier": "every finite-dimensional space, inner product, strictly convex quadratic cost, preconditioner, starting point, beta rule, positive orth_value and min_gradient_norm, exact line searcher, clock and number of iterations", "why_tests_cant": "A bound for all numbers of iterations, dimensions and condition numbers; a run shows the speed on one function.", "anchors": ["src/pymanopt/optimizers/conjugate_gradient.py: ConjugateGradient.run", "src/pymanopt/optimizers/steepest_descent.py: SteepestDescent.run", "src/pymanopt/manifolds/euclidean.py: Euclidean"]}
{"id": "C154", "title": "How many Hessian products the trust-region subproblem takes", "statement": "In exact arithmetic, with a symmetric Hessian and a symmetric positive definite preconditioner (or none), one solution of the trust-region subproblem uses at most as many Hessian products as the preconditioned Hessian has different eigenvalues. If the Hessian is positive definite, with eigenvalues between m and M, and the eigenvalues of the preconditioned Hessian lie between a and b, it uses at most max(mininner + 1, 1 + sqrt(b/a)/2 * log(2 sqrt(M/m) / min(|g|**theta, kappa))) products, whatever the dimension, the radius and maxinner; and if the step is not cut off at the boundary its model value after n products exceeds the minimum by at most 4 ((sqrt b - sqrt a)/(sqrt b + sqrt a))^(2n) times the gain of the Newton step.", "quantifier": "every tangent space, gradient, symmetric Hessian, preconditioner, radius, kappa > 0, theta, mininner, maxinner", "why_tests_cant": "A bound for all dimensions and condition numbers; counting products in a run shows one case.", "anchors": ["src/pymanopt/optimizers/trust_regions.py: TrustRegions._truncated_conjugate_gradient"]}
{"id": "C155", "title": "Nelder-Mead only improves its simplex, except when it shrinks, and shrinks only for a reason", "statement": "An iteration of Nelder-Mead other than a shrinkage replaces one vertex of greatest cost by a point of no greater cost, strictly smaller unless it is an inside contraction, and leaves the other vertices alone, so that none of the ordered costs of the simplex increases. On Euclidean spaces (also complex, symmetric and skew-symmetric matrices), with a quasiconvex cost and 0 <= contraction <= min(1, reflection), the simplex shrinks only if the computed centroid costs more than every vertex it was computed from; in particular never if the centroid lies in their convex hull. Without quasiconvexity a shrinkage can increase costs. If the coefficients are not zero and the centroids lie in the affine hull of the points they were computed from, no vertex ever comes to lie in the affine hull of the others, whatever the cost. compute_centroid does not guarantee this: it returns an approximation.", "quantifier": "every cost, dimension, initial simplex of dim + 1 points, sorting, clock and centroid; every number of iterations", "why_tests_cant": "Holds along every run from every simplex for every cost of a class; a test follows single runs.", "anchors": ["src/pymanopt/optimizers/nelder_mead.py: NelderMead.run, compute_centroid", "src/pymanopt/manifolds/euclidean.py: Euclidean.pair_mean"]}
{"id": "C156", "title": "How fast steepest descent minimises convex costs", "statement": "SteepestDescent with the BackTrackingLineSearcher or the AdaptiveLineSearcher, on a cost with a quadratic upper bound of constant L along the negative gradient whose excess over the minimum is at most D times the norm of the gradient wherever it is at most its value at the starting point, and with a line searcher that is allowed enough contractions: after k+1 iterations the cost exceeds the minimum by at most D^2/(c w k), where c is the sufficient decrease and w a bound for the steps that depends only on L, c, the contraction factor and the first step; with minimal gradient norm eps a run makes at most 2 D/(c w eps) + 2 iterations, and unless another limit ends it the result is within D eps of the minimum. Costs that are convex on Euclidean space, or convex along the geodesics of Positive, PoincareBall, SymmetricPositiveDefinite and HermitianPositiveDefinite, meet the condition if D bounds the distance of these points to a minimiser.", "quantifier": "every problem with such a cost, every starting point, line search parameters, limits, clock and number of iterations; for the condition, every geodesically convex differentiable cost on these manifolds", "why_tests_cant": "A bound for all convex costs and all numbers of iterations; a run shows the speed on one cost.", "anchors": ["src/pymanopt/optimizers/steepest_descent.py: SteepestDescent.run", "src/pymanopt/optimizers/line_search.py: BackTrackingLineSearcher.search, AdaptiveLineSearcher.search", "src/pymanopt/manifolds/positive_definite.py", "src/pymanopt/manifolds/positive.py", "src/pymanopt/manifolds/hyperbolic.py", "src/pymanopt/manifolds/euclidean.py"]}
{"id": "C157", "title": "Hager-Zhang directions of conjugate gradient always descend, and the method converges linearly on strongly convex costs", "statement": "ConjugateGradient with beta_rule HagerZhang, on every manifold, with every line searcher and every orth_value: each line search is made along a tangent vector d with <g, d> <= -7/8 <g, P g>, where g is the gradient at the point and P the preconditioner (linear, symmetric, positive semidefinite, commuting with the transports; the identity if none is supplied), and the slope it is given is <g, d>. Nothing is assumed of the transport except that it returns tangent vectors. Fletcher-Reeves does not have this property. On a Euclidean space, for a cost that is strongly convex with constant mu and smooth with constant L, without a preconditioner, the directions are moreover at most 1 + 3 L/mu times as long as the gradient, so that with either line searcher every iteration reduces the excess of the cost over its minimum by a factor 1 - q given by L, mu and the parameters; a run makes at most log(2 L E / eps^2)/q + 2 iterations, with E the excess at the start and eps = min_gradient_norm; and unless another limit ends it earlier the result has a gradient norm below eps and an excess below eps^2/(2 mu).", "quantifier": "every manifold with an inner product, every line searcher, cost, gradient, starting point and history of steps for the descent; every strongly convex smooth cost, starting point, clock and parameters of the line searchers for the speed", "why_tests_cant": "The bound must hold for every step of every run, whatever the line search returned before; tests see the directions of a few runs.", "anchors": ["src/pymanopt/optimizers/conjugate_gradient.py: ConjugateGradient.run, _beta_hager_zhang, _beta_fletcher_reeves", "src/pymanopt/optimizers/line_search.py: BackTrackingLineSearcher.search, AdaptiveLineSearcher.search", "src/pymanopt/manifolds/euclidean.py: Euclidean"]}
{"id": "C158", "title": "The units of the cost do not matter", "statement": "Replace the cost f by a f + b with a > 0, its gradient and Hessian by their a-fold, and min_gradient_norm by its a-fold. Then a run visits the same points, makes the same numbers of iterations and evaluations, stops for the same reason and returns the same point; only the reported costs, gradient norms and logged values are converted. This holds for SteepestDescent, ConjugateGradient and TrustRegions with any line searcher of the library, and for NelderMead and ParticleSwarm with f replaced by any strictly increasing function of f. The manifolds of the library qualify: their norms, inner products, transports and conversions of Euclidean derivatives commute with positive factors. As the code stands this fails for ConjugateGradient with HagerZhang (the default rule), whose lower bound for beta contains the constant 0.01, and for TrustRegions with its defaults: theta = 1 makes the accuracy of the inner iteration depend on a, and rho_regularization makes the acceptance of a step depend on b.", "quantifier": "every problem, manifold, a > 0, b, strictly increasing function, starting point, line searcher, parameters, clock and random numbers", "why_tests_cant": "A relation between the runs on infinitely many problems; a test compares two runs.", "anchors": ["src/pymanopt/optimizers/steepest_descent.py: SteepestDescent.run", "src/pymanopt/optimizers/conjugate_gradient.py: ConjugateGradient.run", "src/pymanopt/optimizers/trust_regions.py: TrustRegions.run, _truncated_conjugate_gradient", "src/pymanopt/optimizers/nelder_mead.py: NelderMead.run", "src/pymanopt/optimizers/particle_swarm.py: ParticleSwarm.run", "src/pymanopt/optimizers/line_search.py: BackTrackingLineSearcher.search, AdaptiveLineSearcher.search"]}
{"id": "C159", "title": "The printed tables are aligned and their costs can be read back exactly", "statement": "With verbosity 2 the lines that SteepestDescent and ConjugateGradient print are: Optimizing..., two lines of header, one line per iteration, the reason to stop, an empty line. For every max_iterations, every iteration and all binary64 costs and gradient norms, also infinite ones and NaN, header and rows have the same length, every cell starts below the title of its column and is followed by a space, so that splitting a row at spaces gives iteration, cost and gradient norm. Rounding the printed cost to binary64 gives exactly the cost (different costs have different texts), and the printed gradient norm differs from the norm by at most half a unit of its ninth significant digit. With verbosity 2 or more ParticleSwarm prints, after the sentence about the size of the population if that was forced, two lines of header, one line per iteration, the reason to stop and an empty line; up to 10^19 evaluations header and rows have the same length, and splitting a row at spaces gives iteration, number of evaluations and best cost, to nine significant digits, in the last row that of the result; the costs in the rows of TrustRegions are aligned with each other and with the line of the starting point up to 99999 iterations; with verbosity 2 those of the lines TrustRegions prints that begin with acc or REJ are one for each iteration, in order, and tell whether the step was accepted, the number of the iteration, and cost and gradient norm of the iterate after it to seven significant digits, in the last one those of the result; the best costs of NelderMead are aligned up to 10^7 - 1 evaluations. What NelderMead prints is, for every iteration but the last, a row with the number of evaluations and the best cost, to nine significant digits, and a line that tells which move was made, and then a row, the reason to stop and an empty line; the last number of evaluations is that of the result. The text of the stopping criterion tells which criterion it was, and the time in it is off by at most half a hundredth of a second.", "quantifier": "every run, problem, line searcher, number of iterations, and every binary64 value of the cost and the gradient norm", "why_tests_cant": "There are 2^64 costs per row; a test formats a few of them.", "anchors": ["src/pymanopt/tools/printer.py: ColumnPrinter", "src/pymanopt/optimizers/steepest_descent.py: SteepestDescent.run", "src/pymanopt/optimizers/conjugate_gradient.py: ConjugateGradient.run", "src/pymanopt/optimizers/particle_swarm.py: ParticleSwarm.run", "src/pymanopt/optimizers/trust_regions.py: TrustRegions.run", "src/pymanopt/optimizers/nelder_mead.py: NelderMead.run", "src/pymanopt/optimizers/optimizer.py: Optimizer._check_stopping_criterion"]}
{"id": "C160", "title": "Conjugate gradient that always restarts is steepest descent", "statement": "ConjugateGradient with orth_value <= 0, whatever its beta rule, and SteepestDescent with the same line searcher, starting point and limits, for a problem without preconditioner, if no step is shorter than min_step_size (for instance min_step_size <= 0 with the line searchers of the library): if ConjugateGradient returns, SteepestDescent makes the same number of iterations with the same log, stops for the same reason with the same gradient norm, and returns the point one line search further on, with its cost (or raises what that line search raises). If ConjugateGradient raises, SteepestDescent raises the same, or the exception is the ZeroDivisionError of a critical point that SteepestDescent visits. Conversely, if SteepestDescent returns and visits no critical point, ConjugateGradient returns the last point but one.", "quantifier": "every problem whose gradients have the norm of the metric, every beta rule, line searcher, memory of it, starting point, clock and limits", "why_tests_cant": "A relation between two programs on all problems and histories; a test compares them on a few.", "anchors": ["src/pymanopt/optimizers/conjugate_gradient.py: ConjugateGradient.run", "src/pymanopt/optimizers/steepest_descent.py: SteepestDescent.run", "src/pymanopt/optimizers/line_search.py: BackTrackingLineSearcher.search, AdaptiveLineSearcher.search"]}
{"id": "C161", "title": "A backend can be used exactly if it is installed, and sees the numbers of the arrays it is given", "statement": "Decorating a function whose signature is accepted raises RuntimeError exactly if the library of the backend is not installed (NumPy always is) or, for PyTorch, is older than 0.4.1; a decorated function never raises for lack of the library later. Calling a decorated function with any backend applies the user's function to the shapes and elements of the arrays, whatever their strides and offsets; PyTorch gets a copy, with a warning, exactly if a stride is negative, and otherwise works on the memory of the array itself, so that a function that modifies its argument in place modifies the caller's array.", "quantifier": "every environment, version number with any suffix, backend, signature, memory contents, and arrays of any shape, strides and offset", "why_tests_cant": "Tests run in one environment with one version of each library, on freshly created contiguous arrays.", "anchors": ["src/pymanopt/autodiff/__init__.py: Function, backend_decorator_factory", "src/pymanopt/autodiff/backends/_backend.py: Backend._assert_backend_available", "src/pymanopt/autodiff/backends/_pytorch.py: PyTorchBackend.is_available, _from_numpy, prepare_function", "src/pymanopt/autodiff/backends/_tensorflow.py: TensorFlowBackend", "src/pymanopt/autodiff/backends/_jax.py: JaxBackend", "src/pymanopt/autodiff/backends/_autograd.py: AutogradBackend", "src/pymanopt/autodiff/backends/_numpy.py: NumPyBackend"]}
{"id": "C162", "title": "A run of steepest descent can be interrupted and resumed", "statement": "A run of SteepestDescent with max_iterations = k and then one with max_iterations = n of the same object from the point it returned, with reuse_line_searcher=True, do the same as one run with max_iterations = k + n, provided max_time is not reached: if the long run makes more than k iterations, the second run ends at the same point with the same cost, step size, gradient norm, criterion and line searcher (or raises the same exception), the iterations add up, the log of the long run is the one of the first run followed by that of the second, and the cost is evaluated at the same points in the same order, apart from one further evaluation where the runs meet. If the long run ends within k iterations, the first run ends in the same way, at the same point. This does not hold without reuse_line_searcher, nor for ConjugateGradient, which forgets its direction, nor for TrustRegions, which forgets its radius.", "quantifier": "every problem, line searcher, memory of it, starting point, k, n >= 1, limits and clocks", "why_tests_cant": "A relation between three runs, for every point of interruption of every run; a test interrupts a few.", "anchors": ["src/pymanopt/optimizers/steepest_descent.py: SteepestDescent.run", "src/pymanopt/optimizers/conjugate_gradient.py: ConjugateGradient.run", "src/pymanopt/optimizers/trust_regions.py: TrustRegions.run", "src/pymanopt/optimizers/line_search.py: BackTrackingLineSearcher, AdaptiveLineSearcher"]}
{"id": "C163", "title": "From a point where the cost is defined, optimizers return a point where it is", "statement": "Call the cost defined at a point if it is neither NaN nor +inf there. If it is defined at the starting point, then wherever else it is NaN or infinite: TrustRegions visits only points where it is defined and returns one; SteepestDescent and ConjugateGradient return one, with a cost no larger than at the start. NelderMead returns one, with a cost no larger than at any vertex of the initial simplex where it is defined, if there is such a vertex. ParticleSwarm returns a NaN cost exactly if a member of the initial population has one; otherwise its cost is at most every evaluated cost that is not NaN.", "quantifier": "every problem, including costs that are NaN or infinite on any set of points, every line searcher of the library, beta rule, parameters, random numbers, starting point or population, clock and limits", "why_tests_cant": "The set where the cost is undefined and the trials that hit it are arbitrary; a test tries one barrier from a few points.", "anchors": ["src/pymanopt/optimizers/line_search.py: BackTrackingLineSearcher.search, AdaptiveLineSearcher.search", "src/pymanopt/optimizers/steepest_descent.py: SteepestDescent.run", "src/pymanopt/optimizers/conjugate_gradient.py: ConjugateGradient.run", "src/pymanopt/optimizers/trust_regions.py: TrustRegions.run", "src/pymanopt/optimizers/nelder_mead.py: NelderMead.run", "src/pymanopt/optimizers/particle_swarm.py: ParticleSwarm.run"]}
{"id": "C164", "title": "Looser limits extend a run and do not make its result worse", "statement": "Take two runs of an optimizer that differ only in that the second has looser limits: larger max_time, max_iterations or max_cost_evaluations, smaller min_gradient_norm or min_step_size. The second run makes at least as many iterations, its log begins with the log of the first, it evaluates the cost at the points of the first run first, in the same order (apart from the evaluation of the cost that is returned, in SteepestDescent and NelderMead), and if it makes the same number of iterations it returns the same point, cost, step size, gradient norm and log. Where the first run raises, the second raises the same. The cost it returns is no larger, for SteepestDescent and ConjugateGradient with the line searchers of the library, NelderMead, TrustRegions and ParticleSwarm.", "quantifier": "every problem (with costs that are not NaN, for the claim about the cost of SteepestDescent, ConjugateGradient and NelderMead), every pair of limits with max_iterations >= 1, line searcher, beta rule, parameters, random numbers, starting point or non-empty simplex or population, and clock", "why_tests_cant": "A relation between pairs of runs for all pairs of limits; a test compares a few pairs.", "anchors": ["src/pymanopt/optimizers/optimizer.py: Optimizer._check_stopping_criterion, _add_log_entry", "src/pymanopt/optimizers/steepest_descent.py: SteepestDescent.run", "src/pymanopt/optimizers/conjugate_gradient.py: ConjugateGradient.run", "src/pymanopt/optimizers/trust_regions.py: TrustRegions.run", "src/pymanopt/optimizers/nelder_mead.py: NelderMead.run", "src/pymanopt/optimizers/particle_swarm.py: ParticleSwarm.run"]}
{"id": "C165", "title": "The order of the factors of a product does not matter, and a product of one manifold is that manifold", "statement": "Take a product of manifolds, the product of the same manifolds in another order, and the same cost (with its derivatives) as a function of its arguments in this order. The second product is accepted if and only if the first is and has the same dimension, typical distance, distances, inner products and norms of the reordered points and vectors. Every optimizer, started from the reordered point, simplex or population with correspondingly reordered random numbers, passes through the reordered points with the same costs, step sizes, gradient norms, counts, log and criterion, or raises the same exception. A product of one manifold behaves like the manifold itself in the same sense, except that TrustRegions may not on SpecialOrthogonalGroup and UnitaryGroup, because a product does not apply the embedding of its factors when it computes Hessians.", "quantifier": "every number and order of factors with any methods, cost, derivatives, starting points, line searchers of the library, beta rules, parameters, random numbers and clocks; for products of one manifold, manifolds whose norm is the root of the inner product, which C165 shows of the classes with arrays as points and real inner products", "why_tests_cant": "A relation between pairs of runs for every list of factors and every permutation; tests fix one product.", "anchors": ["src/pymanopt/manifolds/product.py: Product", "src/pymanopt/core/problem.py: Problem", "src/pymanopt/optimizers/steepest_descent.py: SteepestDescent.run", "src/pymanopt/optimizers/conjugate_gradient.py: ConjugateGradient.run", "src/pymanopt/optimizers/trust_regions.py: TrustRegions.run", "src/pymanopt/optimizers/nelder_mead.py: NelderMead.run, compute_centroid", "src/pymanopt/optimizers/particle_swarm.py: ParticleSwarm.run"]}
{"id": "C166", "title": "pair_mean returns the intrinsic mean of two points on every manifold that implements it", "statement": "On Euclidean spaces (all shapes, symmetric, skew-symmetric, complex), spheres and their intersections with subspaces, Oblique, ComplexCircle and PoincareBall, pair_mean of two points is a point of the manifold at half their distance from each of them; every other point has a larger sum of squared distances to the two, so it is the only point half way; the order of the two does not matter, and, except on PoincareBall, the mean of a point with itself is the point. On UnitaryGroup and SpecialOrthogonalGroup likewise; on UnitaryGroup, for every pair of points, it is a point of the manifold at half the distance from each and no point has a smaller sum of squared distances. On Product, pair_mean of points has these properties if the pair_mean of every factor has them for the components.", "quantifier": "every manifold that implements pair_mean, of every size, and every pair of points, except those with antipodal points, columns or entries (spheres, Oblique, ComplexCircle), a common vector (PoincareBall), or a quotient with the eigenvalue -1 (SpecialOrthogonalGroup, which is taken with k = 1, and, on UnitaryGroup, for what is said about other points and about the order)", "why_tests_cant": "A minimum over all points of a manifold for every pair of points; a test compares the distances to the result for random pairs.", "anchors": ["src/pymanopt/manifolds/manifold.py: Manifold.pair_mean", "src/pymanopt/manifolds/euclidean.py: _Euclidean.pair_mean", "src/pymanopt/manifolds/sphere.py: _SphereBase.pair_mean", "src/pymanopt/manifolds/oblique.py: Oblique.pair_mean", "src/pymanopt/manifolds/complex_circle.py: ComplexCircle.pair_mean", "src/pymanopt/manifolds/hyperbolic.py: PoincareBall.pair_mean", "src/pymanopt/manifolds/group.py: _UnitaryBase.pair_mean", "src/pymanopt/manifolds/product.py: Product.pair_mean"]}
{"id": "C167", "title": "The checks of derivatives and retractions print what they found", "statement": "When check_gradient or check_hessian returns, what it printed tells: whether all errors of the model were below 1e-12; the size of what to_tangent_space removes from the gradient or from the Hessian applied to the direction, or, where that method is not implemented, that this could not be verified, with the name of the class; and for check_hessian also the deviation from linearity on the combination drawn, the two inner products and their difference. Every number is printed with a relative error of at most 5e-6 and as 0 only if it is zero, so that the sentences say 0 if and only if to_tangent_space leaves the gradient as it is, or the Hessian is linear or symmetric on the vectors drawn. The three numbers of the printed difference are rounded separately, and need not fit each other. Two runs of check_retraction that print the same text found the same slope and the same norm of the distances, up to their rounding to floats. Without matplotlib, or given a direction without a point, check_gradient and check_hessian print nothing; what is not given is drawn.", "quantifier": "every manifold, cost, gradient and Hessian right or wrong, point, direction and vectors drawn, in real arithmetic with any rounding of the numbers to floats before they are formatted (for the sentences that say 0, one that gives zero only for zero, and a norm that vanishes only for the zero vector; for check_retraction, distinct texts without line breaks for distinct floats)", "why_tests_cant": "The claim relates every printed text to the numbers behind it, for all numbers and all manifolds; a test compares a few outputs.", "anchors": ["src/pymanopt/tools/diagnostics.py: check_directional_derivative, check_gradient, check_hessian, check_retraction"]}
{"id": "C168", "title": "The figures of the checks show the errors, their slope and reference lines of the right slopes", "statement": "A figure is shown exactly if the errors can be computed and a line fitted, before the gradient or Hessian is projected, so also if that raises. On doubly logarithmic axes the figure of check_gradient (check_hessian) consists of the errors of the linear (quadratic) model at 51 step sizes from 1e-8 to 1, a thick line along eleven or more consecutive ones of them whose slope is the slope returned by check_directional_derivative, and a dashed line of slope 2 (3). If the cost is quadratic (cubic, with a right gradient) along the curve then the line of the errors is parallel to the dashed line exactly if the gradient (Hessian) gives the right first (second) derivative in the direction. The figure of check_retraction shows the distances between exponential and retraction at 251 multiples of the vector, a dashed line of slope 3, a dotted line of slope 2 and a thick line along eleven of the distances with the slope that is printed; distances of the form |a t^2 + b t^3| (|a t + b t^2|) are parallel to the dashed (dotted) line exactly if a = 0.", "quantifier": "every problem, every manifold whose exponential map or retraction returns (for check_retraction both and the distance), every point, tangent vector and fitting routine", "why_tests_cant": "A test looks at the figure of one problem; that the line is parallel for no wrong derivative is about all of them.", "anchors": ["src/pymanopt/tools/diagnostics.py: check_gradient, check_hessian, check_retraction, identify_linear_piece"]}
