# Formal model of pymanopt in Lean 4

## Trusted base

* Lean 4.33.0's kernel and Mathlib. Theorems depend at most on the axioms
  `propext`, `Classical.choice`, `Quot.sound` (checked with `#print axioms` on
  every theorem listed in MANIFEST.json). No own axioms, no `sorry`, no
  `native_decide`/`bv_decide`.
* The hand transcription of the Python source into the Lean definitions. Every
  definition cites the file and lines it models and states simplifications.
* Contracts of third-party routines (numpy / scipy / LAPACK / the autodiff
  backends), stated as explicit hypotheses on the values they return.

## Layers

* `Verif/Base` - Python scalars (`PyNum`: uninterpreted arithmetic, Boolean
  comparisons, division that may raise), exceptions as values, loops.
* `Verif/Opt` - optimizers: control flow, bookkeeping, decision logic. The
  manifold and cost are records of arbitrary functions, the clock and random
  numbers arbitrary streams. Theorems about comparisons hold for every scalar
  type that satisfies a few IEEE-valid laws (so also for doubles with NaN and
  rounding); arithmetic theorems are over the reals.
* `Verif/Core` - problem, autodiff plumbing, product manifold, tools.
* `Verif/Geo` - manifolds over exact reals / complexes with Mathlib matrices.

Model files (`*/Model*.lean`) hold the transcription, property files hold the
theorems, with their specifications and an `example` or witness that meets the
hypotheses.

## What is modelled

| Source (under `/repo/src/pymanopt`) | Lean |
|---|---|
| `optimizers/optimizer.py` | `Opt/Model/Common.lean` |
| `optimizers/line_search.py` | `Opt/Model/LineSearch.lean` |
| `optimizers/steepest_descent.py` | `Opt/Model/SD.lean` |
| `optimizers/conjugate_gradient.py` | `Opt/Model/CG.lean` |
| `optimizers/nelder_mead.py` | `Opt/Model/NM.lean` (the centroid is a parameter), `Opt/Model/Centroid.lean` |
| `optimizers/particle_swarm.py` | `Opt/Model/PSO.lean` |
| `optimizers/trust_regions.py` | `Opt/Model/TR.lean`, `Opt/Model/RandomStart.lean` |
| the optimizers with operations that may raise | `Opt/Model/Raise.lean` |
| `core/problem.py`, `function.py` | `Core/Model/Problem.lean` |
| `autodiff/__init__.py`, `autodiff/backends/*`, `tools/__init__.py` | `Core/Model/Autodiff.lean` (plumbing; the differentiation itself is a parameter), `Core/Model/Backends.lean` (availability, version test, conversion of strided arrays), `Geo/Model/Backends.lean` (the operators of the four backends on real and complex arrays; the libraries' primitives are parameters under stated contracts) |
| `manifolds/manifold.py`, `manifolds/product.py` | `Core/Model/Product.lean`, `Core/Model/Value.lean` |
| `Product` as used by the optimizers, centroids on products | `Core/Model/ProductOpt.lean` |
| class hierarchy of `manifolds/*.py`, method resolution | `Core/Model/Classes.lean` |
| `tools/multi.py` | `Geo/Model/Multi.lean` (factors returned by LAPACK are arguments, contracts in `Geo/Model/Lapack.lean`) |
| `manifolds/sphere.py`, `RiemannianSubmanifold` of `manifolds/manifold.py` | `Geo/Model/Sphere.lean` |
| `manifolds/euclidean.py` | `Geo/Model/Euclidean.lean` |
| `manifolds/oblique.py` | `Geo/Model/Oblique.lean` |
| `manifolds/complex_circle.py` | `Geo/Model/ComplexCircle.lean` |
| `manifolds/stiefel.py` | `Geo/Model/Stiefel.lean` |
| `manifolds/grassmann.py` | `Geo/Model/Grassmann.lean` |
| `manifolds/positive.py` | `Geo/Model/Positive.lean` |
| `manifolds/positive_definite.py` | `Geo/Model/PositiveDefinite.lean` |
| `manifolds/psd.py` | `Geo/Model/Psd.lean` |
| `manifolds/hyperbolic.py` | `Geo/Model/Hyperbolic.lean` |
| `manifolds/fixed_rank.py` | `Geo/Model/FixedRank.lean` |
| `manifolds/group.py` | `Geo/Model/Group.lean`, `Geo/Model/GroupStack.lean` (the type `np.vectorize` gives a stack of real logarithms; elsewhere the logarithms are taken as complex; points of the unitary group are arrays of complex type) |
| `typical_dist` of all manifold classes | `Geo/Model/TypicalDist.lean`, `Core/Model/Product.lean` |
| the manifold classes as seen by the optimizers | `Geo/Model/OptMfd.lean`, `Geo/Model/FixedRankMfd.lean` |
| what the optimizers print | `Opt/Model/Output.lean` (as messages with their values), `Opt/Model/Text.lean` (as text), `Base/Format.lean` (format codes of Python) |
| dist, log, retraction and normalisation of spheres, oblique manifold, complex circle, Grassmann, Poincare ball and positive matrices in an arithmetic that rounds | `Geo/Model/Rounding.lean`, `Base/Binary64.lean` (no over- and underflow) |
| `tools/printer.py`, `identify_linear_piece` | `Core/Model/Tools.lean` |
| `tools/diagnostics.py` | `Core/Model/Diagnostics.lean`, `Core/Model/DiagnosticsText.lean`, `Core/Model/DiagnosticsPlot.lean` (labels and colours of plots and the texts of exceptions left out; `np.polyfit` and `str` of a float are parameters) |
| `tools/testing.py` | `Geo/Model/Testing.lean` |
| `examples/*.py`, `examples/advanced/*.py`: costs, hand-written derivatives, reference solutions | `Geo/Model/Examples.lean` (random data is a parameter; printing and argument parsing left out) |
| `examples/notebooks/mixture_of_gaussians.py`: cost, parameters read off, line search | `Geo/Model/Mixture.lean`, `Opt/Model/LineSearchMoG.lean` (sampling and plots left out) |

Not modelled: the third-party autodiff libraries, and floating
point rounding in the geometry layer, which computes with exact reals and complexes, except for the properties about rounding (C143, C144).

## Where the code does not have the property

For these the negation is proved (a witness, or for all runs) next to a
theorem with suffix `_partial` for what does hold.

- **C09** SteepestDescent / ConjugateGradient / TrustRegions results are self-consistent: False for steepest descent: gradient_norm is that of the previous iterate (negation proved). Proved for conjugate gradient and trust regions, and for point and cost in steepest descent.
- **C12** Conjugate gradient survives reaching an exact critical point: False: on a manifold with Python float inner products a zero gradient raises ZeroDivisionError (negation proved). Proved when no division raises.
- **C13** Steepest descent started at an exact critical point returns it: False: steepest descent started at a critical point can return NaN (negation proved). Proved when the threshold is met before a step.
- **C15** Dimension-derived defaults of NelderMead / ParticleSwarm follow the problem at hand: False: limits computed in the first run stay on the object (negation proved for every history). Proved for histories on manifolds of one dimension.
- **C17** Nelder-Mead accepts exactly simplices of dim+1 points: False: the length test is inverted (negation proved for every dimension and list). Proved for random simplices and non-sequences.
- **C20** Particle swarm evaluates every position it moves to: False: positions of the last move are never evaluated (negation proved). Proved: all other positions are.
- **C21** Particle swarm leaves the caller's initial population alone and accepts any sequence: False: a list is overwritten and a tuple raises (negations proved). Proved for runs that stop at the first check.
- **C22** Reported cost_evaluations is the number of cost evaluations: False for steepest descent, conjugate gradient and Nelder-Mead (undercounts proved for every run). Proved for particle swarm.
- **C25** Trust regions costs are monotonically decreasing (as the code comments claim): False (a run with default options that increases the cost). Proved: increase per step below max(1,|f|)*eps*rho_regularization.
- **C30** Inner iterations are bounded by maxinner and any bound is accepted: Bound proved. False for maxinner <= 0 (UnboundLocalError, hence on manifolds of dimension 0). Proved: a step is returned for maxinner >= 1 with numpy-valued inner products.
- **C31** Iteration log has one consistent entry per iteration: Proved for steepest descent and conjugate gradient; false for the other three, whose logs stay empty (negation proved).
- **C39** Euclidean Hessians receive ambient-space vectors: False on products: Product never embeds (negation proved). Proved on every other manifold and on products whose factors embed trivially.
- **C40** Automatic gradients work on every product manifold: False for a product of one manifold with one array: the bare array is rejected (negation proved). Proved otherwise.
- **C41** User-supplied Riemannian gradients on products can drive gradient optimizers: False: a user-supplied Riemannian gradient on a product is always a plain list, whose negation raises TypeError (negation proved for every history). Proved for converted Euclidean gradients.
- **C46** A product of any number of manifolds can be formed: False for the empty product, which raises TypeError. Proved for all others.
- **C55** to_tangent_space returns a tangent vector on every manifold: False for Symmetric, SkewSymmetric, both sphere-subspace manifolds and the special Hermitian positive definite manifold (bound to the base class projection) and for the elliptope (sign error, see C77): there the result is tangent only for tangent arguments. Proved on the sphere, oblique, Stiefel, Grassmann, positive, positive definite, fixed-rank positive semidefinite and fixed-rank manifolds, the groups, the complex circle and the Poincare ball.
- **C59** Sphere exp inverts log: False: because of the added machine epsilon both equations hold only for a = b (proved for every pair of points). Proved: exact size of the error, below epsilon for points at most a right angle apart.
- **C62** Sphere-subspace intersections stay in the subspace: False for span matrices without full column rank, for every QR factorisation (negation proved for every such matrix). Proved for full column rank.
- **C65** Complex circle exponential stays on the manifold: False: the result buffer is real, so the imaginary part is lost; exp stays on the manifold only when it ends at a real point (proved for every input). Proved: the result is the real part of the geodesic.
- **C77** Elliptope projection is a projection onto horizontal vectors: False: the right-hand side handed to the Lyapunov solver has the wrong sign, so the vertical part is doubled instead of removed; negation proved at every orthogonal point of size two or more. Proved: rows stay orthogonal, tangent vectors are fixed, and the exact condition under which the result is horizontal or unchanged by a second application.
- **C89** Poincare ball log and pair mean are defined for equal points: False at every point: equal points give 0/0, so log and pair_mean are NaN (proved for all points). Proved: NaN appears exactly in the balls where the points agree.
- **C91** Fixed-rank tangent vectors embed isometrically and projection is orthogonal: Also: the tangent space is exactly the set of velocities of factored curves. False for low-rank ambient tuples: the transposed application omits the transpose of S, so the result is not even tangent (negation proved at every point of positive rank). Proved for dense vectors and for tuples with symmetric S, in particular transport.
- **C93** Fixed-rank retraction returns a valid point: Proved: positive descending singular values, best approximation among all matrices of rank at most k up to the shift, first-order agreement, existence of a result; orthonormal factors whenever point plus tangent vector has rank k. Missing: orthonormal factors when the rank drops, which the documented properties of QR and SVD do not give (C93_gap).
- **C94** Fixed-rank retraction of the zero vector is the point: False at every point of positive rank because the singular values are shifted by machine epsilon. Proved: the squared distance is exactly k eps^2.
- **C95** Group projection returns Lie algebra elements: Special orthogonal group: proved. Unitary group: false at every point, because projection takes the skew-symmetric instead of the skew-Hermitian part; it is right exactly for ambient vectors with real X^H W (C95_unitary_partial). So the converted gradient on U(1) is always zero.
- **C97** Group log, distance and pair mean: Unitary group: proved for all pairs of points. Special orthogonal group: the logarithm is complex exactly when the quotient has an eigenvalue -1 (e.g. the half turn of the plane); otherwise proved. In a stack, log is also wrong if the first quotient lacks that eigenvalue and another one has it, because numpy then drops the imaginary part of the other one's logarithm (C97_so_stack_negation); otherwise the stack is treated like its members (C97_so_stack, C97_so_stack_dist), and dist is never longer (C97_so_stack_dist_le). C97_shortest and C97_shortest_unique are about shortest tangent vectors.
- **C100** Reported dimension is the dimension of the tangent space: Every manifold class; products as the sum over the factors. False for HermitianPositiveDefinite and SpecialHermitianPositiveDefinite at all sizes: both report k n more than the dimension of the tangent spaces. For the sphere-subspace manifolds matrix_rank is the exact rank.
- **C101** Random tangent vectors are unit-norm tangent vectors: Sphere, sphere-subspace, oblique, complex circle, Euclidean, symmetric, skew-symmetric, Stiefel, Grassmann, positive, positive definite, special positive definite, fixed-rank positive semidefinite, fixed-rank, Poincare ball, the groups and products. False on the elliptope (see C77), where only norm one and orthogonal rows are proved, and on SO(1), where every draw is zero.
- **C102** Trust-region subproblem solver returns an exact solution it has found: False: with mininner >= 1 the solution found in the first inner iteration is lost (0/0), shown for every Hessian proportional to the identity and for a concrete run.
- **C103** With use_rand the proposed step stays inside the trust region: False: concrete strictly convex model whose step is longer than the radius. Proved for every start in the region: the step exceeds the radius by at most the length of the start and by at most the factor sqrt 2, and not at all if the solver stops in its first iteration; the same bound and a predicted decrease hold for the step kept after the comparison with the Cauchy point.
- **C105** Product methods reject arguments with the wrong number of components: False: surplus components are ignored and missing ones shorten the result (zip truncation), for every product; negations proved. Only arguments without components (numbers, arrays of dimension zero) are rejected (C105_partial).
- **C106** Printing does not change what a run returns: False for iteration limits below one: default verbosity raises OverflowError or ValueError (negation proved). Proved for limits of at least one.
- **C107** Complex circle distance, log and pair mean: False for different entries at an angle of at most 1e-6 (log too short) and for antipodal entries (NaN); negations proved. Proved for all other entries; dist is a metric, pair_mean as claimed.
- **C110** The Riemannian gradient is the gradient of the cost along retractions: Every manifold class, with product manifolds. On the fixed-rank manifold the retraction ends at a point whose singular values are shifted by eps, so the statement is about the curve without the shift and distinct singular values. False for the unitary group: at every point some cost changes to first order along a tangent vector although its converted gradient is zero (negation proved).
- **C117** The checks validate their arguments and name what is missing: False for check_retraction: a tangent vector given without a point is silently replaced by a random one, and where dist is not implemented it raises NotImplementedError, because the guard for dist calls retraction a second time (both proved). Everything else holds.
- **C118** The checks tell tangent vectors from others and symmetric Hessians from others: The residual detects tangent vectors on the sphere, oblique, complex circle, Stiefel, Grassmann and special orthogonal manifolds and where all arrays are tangent. False for symmetric and skew-symmetric matrices (residual always zero), spheres cut by a subspace (detects tangency to the sphere only), special Hermitian positive definite matrices (Hermitian only), and positive definite matrices (the square root of a negative number, nan, for every vector that is not Hermitian); negations proved.
- **C119** dist is a metric on every manifold that implements it: Euclidean spaces and matrix subspaces, spheres, oblique, complex circle, positive arrays, Poincare balls, positive definite and special Hermitian positive definite matrices, PSD quotients, Grassmann manifolds, unitary and special orthogonal groups, products. Stiefel, fixed-rank, and elliptope have no dist. The special orthogonal group with k = 1 (C119_special_orthogonal_single; C119_special_orthogonal is about the logarithms before numpy stores them). False on stacks of rotations, where numpy drops the imaginary parts of logarithms: dist vanishes between (1, 1) and (1, -1) (C119_special_orthogonal_negation). There it has one value, is not negative, zero for equal points, and symmetric (C119_special_orthogonal_stack_partial).
- **C120** typical_dist gives trust regions a valid radius that covers bounded manifolds: Holds for spheres, oblique, complex circle, unitary and special orthogonal manifolds, where typical_dist is also attained (special orthogonal: even size), and for products. False on Grassmann manifolds: orthogonal subspaces are pi/2 times typical_dist apart, which is the largest possible distance (both proved). C120_special_orthogonal_stack is about distances of stacks of rotations as numpy stores them (see C119). Unbounded manifolds and those without dist: positivity only.
- **C121** log is minus the gradient of half the squared distance: Exact on Euclidean spaces, positive arrays, Poincare balls (distinct points), positive definite and special Hermitian positive definite matrices, PSD quotients, Grassmann manifolds, unitary and special orthogonal groups, products. Not exact on spheres and oblique manifolds, whose log adds eps to numerator and denominator (negation proved, error bounded), nor within 1e-6 on the complex circle, where log is truncated (error bounded).
- **C122** compute_centroid descends towards the Karcher mean: Exact gradients on the same manifolds as C121 except the unitary group, whose inner product is a complex number in the code; spheres, oblique and complex circle up to the bounded errors of C121. On products compute_centroid raises (C151).
- **C124** Derivatives with respect to arguments the cost ignores are zero arrays: False for the Hessian of PyTorch: torch.autograd.grad(allow_unused=True) returns None for an ignored argument and the operator takes its conj, an AttributeError (negation proved). Gradients, and Hessians of the other backends, hold.
- **C126** The quadratic model of trust regions is accurate to second order: exp of all manifolds with a Hessian conversion except the complex circle, whose exp drops imaginary parts, and the retractions of spheres, oblique, elliptope, complex circle, positive arrays and matrices, Grassmann (both) and the polar retractions. False for the QR retraction, the default of Stiefel and of the groups, away from critical points (C126_qr_negation; at critical points C126_stiefel_qr_partial and C126_special_orthogonal_qr_partial), and for the first order term on the unitary group (C110). C126_product combines factors, for which the C126_factor theorems are stated; a product does not embed the tangent vectors of the groups, which are therefore not among the factors.
- **C128** Derivatives written out by hand in the examples are those of their costs: Right for all examples except two. The Hessian of pca.py has an extra term and is not linear in the direction (C128_pca_hessian_negation; its gradient is right, C128_pca_gradient_partial). The gradient of rank_k_correlation_matrix_approximation.py is half the true one and does not fit the Hessian given beside it (C128_correlation_negation; twice it is right, C128_correlation_partial).
- **C129** An example minimises the same cost whichever backend is chosen: Holds for all examples and backends except TensorFlow in packing_on_the_sphere.py, which computes the exponentials but sums the inner products themselves, including those of points with themselves (C129_packing_tensorflow_negation).
- **C137** The cost of the mixture of Gaussians notebook is geodesically convex: Holds for one component (C137_one_component_partial). False for two components or more, whatever the samples and the probabilities: the negation gives for each of them a geodesic along which the cost is not convex.
- **C138** The line search of the mixture of Gaussians notebook is back-tracking that survives singular matrices: Holds while no trial point makes the objective raise (C138_same, C138_safe_partial); count and membership in the manifold hold always. False after a LinAlgError: the caller's point is overwritten in place with a random replacement, which is returned whatever its cost (C138_negation).
- **C139** Verbosity decides what is printed: The printed lines are modelled as messages with their values, not their formatting. Holds for all optimizers but particle swarm, which prints a warning whatever the verbosity if the initial population has another size than configured (C139_negation). For trust regions the warning about the ratio could be printed only if a division by zero raised, which it never does for Python and NumPy scalars (C139_silent_trustRegions_numpy).
- **C140** The best cost printed is the best cost found so far: Holds for particle swarm. False for Nelder-Mead: the row is printed before the simplex is sorted, so it shows the best cost of the iteration before (C140_negation, on x**2); C140_nelderMead_partial states what it shows.
- **C143** Distances and logarithms give numbers despite rounding errors: Holds for spheres (all arrays), Grassmann distances (all singular values), positive arrays, and distances in the Poincare ball. False for the oblique manifold (dist caps inner products at 1 but not at -1, log not at all), the complex circle (no caps: dist(z, z) can be NaN) and log in the Poincare ball; the negations are computed in binary64 with points normalised by the manifolds themselves, and C143_oblique_partial, C143_complexCircle_partial say exactly when there is no NaN. C143_exact_* relate the rounding model to the exact models. Overflow and underflow are not modelled.
- **C144** Rounding errors do not drive iterates off the manifold: Holds for spheres, oblique manifolds, elliptopes, complex circles, positive arrays and (skew-)symmetric parts, for every arithmetic with relative errors and for binary64 with sums from left to right; C144_runs_* are about whole runs and C144_exact_* relate the rounding model to the exact models. False for the Poincare ball: in binary64 retraction(0, 20) is 1, on the boundary, and every further retraction is NaN (C144_negation_poincare, for every tanh that is accurate before rounding). Overflow and underflow are not modelled; retractions that use QR or polar factors are not modelled with rounding.
- **C150** Exceptions raised by the user's functions or by missing methods of the manifold end the run unchanged, and leave the optimizer usable: Partial: the Hestenes-Stiefel rule catches ZeroDivisionError, including one raised by inner_product itself, and continues with beta = 1 (C150_hestenesStiefel_swallows); C150_conjugateGradient_partial covers the other exceptions and rules. An exception is an operation's outcome at its arguments: functions that raise depending on earlier calls are not covered, interrupts at arbitrary points are (the *_afterwards and *_reuse theorems, on the memory kept in the optimizer object).
- **C158** The units of the cost do not matter: Real arithmetic for the methods with gradients; any ordered numbers for Nelder-Mead and particle swarm (the sort must commute with the increasing function, as a stable sort by cost does). C158_conjugateGradient_partial needs a rule other than HagerZhang, C158_trustRegions_partial needs rho_regularization = 0 and theta = 0 (or a = 1): without these the property is false, see C158_negation_hagerZhang, C158_negation_shift, C158_negation_theta. For the positive semidefinite matrices of fixed rank and the elliptope the solver of the Lyapunov equation is any that solves it; the Poincare ball implements no transport.
- **C161** A backend can be used exactly if it is installed, and sees the numbers of the arrays it is given: PyTorch versions are compared as texts (C161_version says for which versions the test succeeds), which is wrong for major version 0 with minor versions of several digits (C161_negation); C161_version_partial excludes these (none was released). Strides count elements; the libraries' conversions are modelled by what they do to shape and elements; data types are not modelled.
- **C163** From a point where the cost is defined, optimizers return a point where it is: False for SteepestDescent and ConjugateGradient (C163_negation_steepestDescent, C163_negation_conjugateGradient): both line searchers accept a first trial whose cost is NaN (C163_lineSearch_nan), because every comparison with NaN is False. C163_steepestDescent_partial and C163_conjugateGradient_partial assume that no evaluated cost is NaN (infinite ones are allowed). The statements about TrustRegions, NelderMead and ParticleSwarm are proved in full; the one about NelderMead for sorts that put NaN last, as np.argsort does.
- **C164** Looser limits extend a run and do not make its result worse: Two parts are false. TrustRegions with the default rho_regularization may return a larger cost after more iterations (C164_negation_trustRegions); C164_trustRegions_cost_partial assumes rho_regularization = 0 and rho_prime >= 0. ParticleSwarm with a larger max_iterations visits other points and may return a larger cost, because the inertia depends on max_iterations (C164_negation_particleSwarm); C164_particleSwarm_partial and C164_particleSwarm_raises_partial are about the other limits. All else is proved as stated. looser_time connects max_time with the hypothesis on deadlines.

## Plan and outcome per property

- **C01** [proved] Stopping rule is exactly the five thresholds, in priority order: Model `Optimizer._check_stopping_criterion` branch by branch over the abstract scalar `PyNum`; prove the decision table for every input (decision logic). Outcome: Decision table of the stopping rule for every configuration, plus: every completed run of each of the five optimizers stops for exactly the first criterion that holds at its last iteration, and for none before.
- **C02** [proved] Every run of every optimizer terminates within max_iterations: Models of the five `run` loops are total functions by well-founded recursion on `max_iterations - iteration`; prove the reported iteration count bound by induction. Outcome: Every run ends after at most max(1, max_iterations) iterations and reports the exact count.
- **C03** [proved] Line searches make a bounded number of cost evaluations: Ghost counter of objective calls in the line-search models; induction on the loop. Outcome: Bounds on the number of evaluations, both built-in line searchers.
- **C04** [proved] Line searches never return a point with larger cost: Induction on the back-tracking loop; only comparison laws valid for IEEE doubles are used. Outcome: Both built-in line searchers.
- **C05** [proved] Armijo condition holds on early exit of a line search: Invariant of the back-tracking loop (exit test is the Armijo test). Outcome: Both built-in line searchers.
- **C06** [proved] Line-search memory drives the next initial trial: Sequential state of the line searcher; lemma about `_oldalpha`, `_oldf0` after a search. Outcome: Both built-in line searchers.
- **C07** [proved] Steepest descent never increases the cost: SD loop over an arbitrary line searcher that satisfies C04; invariant cost <= initial cost. Outcome: Needs NaN-free costs; any line searcher that never ascends, and both built-in ones.
- **C08** [proved] Conjugate gradient never increases the cost: Same for CG. Outcome: Needs NaN-free costs; any line searcher that never ascends, and both built-in ones.
- **C09** [partial] SteepestDescent / ConjugateGradient / TrustRegions results are self-consistent: Loop invariant cost = objective(point), gradient_norm = norm(gradient(point)); SD's stale norm is a negation with witness.
- **C10** [proved] Conjugate gradient only searches along descent directions: Invariant of the CG loop: the direction given to the line search has negative inner product with the gradient, or is minus the preconditioned gradient. Outcome: The line search is always called with the stated slope, negative when the preconditioner is positive.
- **C11** [proved] Beta rules respect their documented bounds: Pure functions for the beta rules; prove documented bounds from comparison laws. Outcome: All five rules, restart test and direction.
- **C12** [partial] Conjugate gradient survives reaching an exact critical point: `Except` semantics of Python float division; concrete witness for the ZeroDivisionError, partial theorem for numpy-scalar manifolds / no exact critical point.
- **C13** [partial] Steepest descent started at an exact critical point returns it: Witness with the extended-real scalars `XF` (1/0 = inf, inf*0 = nan); partial theorem when the gradient norm is non-zero.
- **C14** [proved] Runs are independent of optimizer history unless reuse is requested: Model the optimizer object state (line searcher, log, stored defaults) explicitly; prove run results do not depend on it. Outcome: Independence of runs and reuse of the line searcher.
- **C15** [partial] Dimension-derived defaults of NelderMead / ParticleSwarm follow the problem at hand: Negation by witness of two successive runs; partial: first run uses the right defaults.
- **C16** [proved] Nelder-Mead keeps and returns the best vertex: Invariant on the sorted simplex (list, insertion sort = argsort contract). Outcome: NaN-free costs; any routine that sorts by cost, any centroid routine.
- **C17** [partial] Nelder-Mead accepts exactly simplices of dim+1 points: Negation by witness; partial: the accept/reject table as coded and random-start branch.
- **C18** [proved] Nelder-Mead iteration follows the published decision table: Decision table against an independent specification. Outcome: Simplices of dim+1 >= 2 points, as drawn by the optimizer.
- **C19** [proved] Particle swarm keeps and returns the best evaluated position: Invariant: best cost is the minimum of all evaluated costs. Outcome: NaN-free costs; global and personal bests.
- **C20** [partial] Particle swarm evaluates every position it moves to: Negation by witness; partial: which positions are evaluated.
- **C21** [partial] Particle swarm leaves the caller's initial population alone and accepts any sequence: Explicit heap cell for the caller's list; negation by witness; partial when no population is passed.
- **C22** [partial] Reported cost_evaluations is the number of cost evaluations: Ghost counter; exact count for PSO; negations with witness for SD/CG/NM.
- **C23** [proved] Trust-region radius stays in (0, Delta_bar]: Invariant over the outer loop over real scalars. Outcome: Includes infinite radii; default radii for positive typical_dist or dimension.
- **C24** [proved] Trust regions never increases the cost beyond its regularisation: Acceptance test algebra over reals: f_prop - f <= rho_reg. Outcome: Bound for finite values; monotone for rho_regularization = 0 including infinities and NaN.
- **C25** [partial] Trust regions costs are monotonically decreasing (as the code comments claim): Negation with witness; partial when regularisation is zero.
- **C26** [proved] Trust regions rejects non-finite proposals: Over `XF`: NaN ratio never passes `rho > rho_prime`. Outcome: NaN cost or NaN in the predicted decrease.
- **C27** [proved] Every trust-region rejection shrinks the radius: Decision logic of the radius update. Outcome: Holds for every scalar type with lawful comparisons.
- **C28** [proved] The trust-region subproblem solver stays inside the trust region: tCG loop in a real inner product space; invariant norm^2 tracked exactly. Outcome: Exact arithmetic, linear self-adjoint Hessian, zero start; also for a preconditioner in its own norm.
- **C29** [proved] The trust-region subproblem solver decreases the model: tCG loop; invariant: model value non-increasing, actual = tracked quadratic model. Outcome: Exact arithmetic, linear self-adjoint Hessian, zero start, SPD preconditioner.
- **C30** [partial] Inner iterations are bounded by maxinner and any bound is accepted: Loop bound by induction; unbound `j` for maxinner = 0 is an exception value.
- **C31** [partial] Iteration log has one consistent entry per iteration: Log list invariant; empty log negation for TR/NM/PSO.
- **C32** [proved] Problem.cost calls the user function on the flattened point: Structural model of point layouts (int / nested tuples) and flattening. Outcome: All layouts, all points, malformed points included.
- **C33** [proved] Regrouping gradients inverts flattening points: Structural induction on the layout. Outcome: Both directions, every compound layout.
- **C34** [proved] Gradients with the wrong shape are rejected: Shape model; decision logic of the validation. Outcome: Exactly which returned values raise; exceptions of the user's function pass through.
- **C35** [proved] Problem constructor validation: Decision logic of the constructor. Outcome: cost=None passes validation, as the code has it.
- **C36** [proved] User-supplied derivatives take precedence and derived ones compose correctly: Model of the lazy properties as state machine on `Problem`. Outcome: For every history of accesses, with generators that answer the same on each call.
- **C37** [proved] Derivative operators are generated at most once and only on demand: State machine; counters of generator calls over arbitrary access histories. Outcome: For every history of accesses.
- **C38** [proved] A problem's manifold and preconditioner are immutable: State machine: setters raise. Outcome: For every sequence of assignments.
- **C39** [partial] Euclidean Hessians receive ambient-space vectors: Negation by witness on a product with SO factor; partial for single manifolds.
- **C40** [partial] Automatic gradients work on every product manifold: Negation by witness for single factor; partial for products of >= 2 factors.
- **C41** [partial] User-supplied Riemannian gradients on products can drive gradient optimizers: Negation (list negation TypeError); partial when wrapped.
- **C42** [proved] Backend decorators accept exactly purely positional signatures: Signature model (parameter kinds). Outcome: Every parameter list.
- **C43** [proved] Hessian operators split their arguments into point and vector: List splitting lemma. Outcome: Every number of arguments.
- **C44** [proved] Manifold constructor validation and num_values: Structural recursion. Outcome: Decision table of the constructor; number of values of every well-formed point.
- **C45** [proved] Product manifold acts factor by factor: Product over a list of manifold records. Outcome: Each method, plus exp/log inverses of the factors lift to the product.
- **C46** [partial] A product of any number of manifolds can be formed: Negation for the empty list; theorem for non-empty lists.
- **C47** [proved] Product tangent vectors form a vector space: Vector space axioms for factorwise operations. Outcome: Components are arrays or fixed-rank tangent vectors in any arrangement; operations are those of the vector space of families of arrays. C47_fixedRank_mismatch: addition of fixed-rank tangent vectors does not check lengths, but a shorter operand never gives a result.
- **C48** [proved] Column printer lines are aligned: String length arithmetic of the printer. Outcome: Non-negative padding.
- **C49** [proved] Linear-piece detection returns the best window: Argmin over windows, induction on list. Outcome: polyfit is a parameter; windows of at most two points always raise because polyfit returns no residual.
- **C50** [proved] Stacked transpose and symmetrisation tools act matrix by matrix: Mathlib matrices over RCLike, stacks as functions from an index type. Outcome: Real and complex, every stack.
- **C51** [proved] multiqr returns the unique QR factorisation with non-negative diagonal: QR contract hypothesis (any Q,R with orthonormal Q, triangular R), sign fix modelled, uniqueness by Cholesky-type induction. Outcome: Any number of rows and columns, real and complex; uniqueness for independent columns.
- **C52** [proved] Symmetric multiexpm / positive definite multilogm are the matrix exponential and its inverse: eigh contract hypothesis; Matrix exponential of Mathlib (`NormedSpace.exp`). Outcome: Exactly Mathlib's matrix exponential; logarithm characterised as the only Hermitian solution of exp(B) = A.
- **C53** [proved] Euclidean manifolds have flat geometry: Geometry layer: transcription of the method over Mathlib reals/complexes/matrices; algebraic proof. LAPACK results enter as contract hypotheses on the outputs. Outcome: Real and complex tensors of any shape.
- **C54** [proved] Symmetric and skew-symmetric projections are orthogonal projections: Geometry layer: transcription of the method over Mathlib reals/complexes/matrices; algebraic proof. LAPACK results enter as contract hypotheses on the outputs. Outcome: Every stack.
- **C55** [partial] to_tangent_space returns a tangent vector on every manifold: Per-manifold theorem; negations by witness for Symmetric, SkewSymmetric, SphereSubspaceIntersection, SpecialHermitianPositiveDefinite.
- **C56** [proved] Sphere projection is the orthogonal projection onto the tangent space: Geometry layer: transcription of the method over Mathlib reals/complexes/matrices; algebraic proof. LAPACK results enter as contract hypotheses on the outputs. Outcome: Tensors of any shape.
- **C57** [proved] Sphere retraction and exponential stay on the sphere and agree to first order: As above, and derivative statements via Mathlib `HasDerivAt`. Outcome: Includes both derivatives at zero.
- **C58** [proved] Sphere distance is the geodesic distance: Geometry layer: transcription of the method over Mathlib reals/complexes/matrices; algebraic proof. LAPACK results enter as contract hypotheses on the outputs. Outcome: Including the triangle inequality.
- **C59** [partial] Sphere exp inverts log: epsilon in the formula makes the claim false: negation by witness, partial theorem with the exact closed form.
- **C60** [proved] Sphere Hessian conversion is the Riemannian Hessian: As above, and derivative statements via Mathlib `HasDerivAt`. Outcome: Derivative along every differentiable curve on the sphere.
- **C61** [proved] Sphere pair mean is the geodesic midpoint: Geometry layer: transcription of the method over Mathlib reals/complexes/matrices; algebraic proof. LAPACK results enter as contract hypotheses on the outputs. Outcome: All pairs of points that are not antipodal.
- **C62** [partial] Sphere-subspace intersections stay in the subspace: Geometry layer: transcription of the method over Mathlib reals/complexes/matrices; algebraic proof. LAPACK results enter as contract hypotheses on the outputs.
- **C63** [proved] Oblique operations act as sphere operations on each column: Geometry layer: transcription of the method over Mathlib reals/complexes/matrices; algebraic proof. LAPACK results enter as contract hypotheses on the outputs. Outcome: The operations equal the sphere's on each column; log has the same epsilon error (see C59).
- **C64** [proved] Complex circle projection and retraction are correct: Geometry layer: transcription of the method over Mathlib reals/complexes/matrices; algebraic proof. LAPACK results enter as contract hypotheses on the outputs. Outcome: Also initial velocity of the retraction and the Hessian as derivative of the gradient field.
- **C65** [partial] Complex circle exponential stays on the manifold: Real-dtype buffer modelled (imaginary part dropped): negation by witness, partial at zero vector / real result.
- **C66** [proved] Stiefel projection is the orthogonal projection onto the tangent space: Geometry layer: transcription of the method over Mathlib reals/complexes/matrices; algebraic proof. LAPACK results enter as contract hypotheses on the outputs. Outcome: Stacks of any size.
- **C67** [proved] Stiefel retractions return orthonormal matrices and are retractions: As above, and derivative statements via Mathlib `HasDerivAt`. Outcome: For every factorisation the linear algebra library may return; the QR retraction's initial velocity is proved as well.
- **C68** [proved] Stiefel exponential returns orthonormal matrices: Geometry layer: transcription of the method over Mathlib reals/complexes/matrices; algebraic proof. LAPACK results enter as contract hypotheses on the outputs. Outcome: Initial velocity as well.
- **C69** [proved] Stiefel Hessian conversion is the Riemannian Hessian: As above, and derivative statements via Mathlib `HasDerivAt`. Outcome: Derivative along every differentiable curve on the manifold.
- **C70** [proved] Grassmann projection is the orthogonal projection onto the horizontal space: Geometry layer: transcription of the method over Mathlib reals/complexes/matrices; algebraic proof. LAPACK results enter as contract hypotheses on the outputs. Outcome: Stated for the complex class over any of the two fields; the real class is proved equal to it over the reals.
- **C71** [proved] Grassmann retraction and exponential return orthonormal representatives of the right subspace: Geometry layer: transcription of the method over Mathlib reals/complexes/matrices; algebraic proof. LAPACK results enter as contract hypotheses on the outputs. Outcome: Also the exact form of exp, initial velocities and that every call returns a result.
- **C72** [proved] Grassmann distance depends on subspaces only: Geometry layer: transcription of the method over Mathlib reals/complexes/matrices; algebraic proof. LAPACK results enter as contract hypotheses on the outputs. Outcome: Also dist(X, exp(X, Z)) = norm(Z) up to singular values of pi/2.
- **C73** [proved] Grassmann exp inverts log up to the choice of basis: Geometry layer: transcription of the method over Mathlib reals/complexes/matrices; algebraic proof. LAPACK results enter as contract hypotheses on the outputs. Outcome: Also norm(log) = dist, log(X, exp(X, Z)) = Z, and exactly when log raises.
- **C74** [proved] Fixed-rank PSD projection is the orthogonal projection onto horizontal vectors: Geometry layer: transcription of the method over Mathlib reals/complexes/matrices; algebraic proof. LAPACK results enter as contract hypotheses on the outputs. Outcome: Real and complex, every size; also the gradient of costs on equivalence classes.
- **C75** [proved] Fixed-rank PSD log reaches the target matrix: Geometry layer: transcription of the method over Mathlib reals/complexes/matrices; algebraic proof. LAPACK results enter as contract hypotheses on the outputs. Outcome: Also: the distance is the smallest Frobenius distance to a representative of the target and a metric on equivalence classes; log inverts exp for vectors that are not too long; every call returns a result.
- **C76** [proved] Elliptope operations keep unit rows: Geometry layer: transcription of the method over Mathlib reals/complexes/matrices; algebraic proof. LAPACK results enter as contract hypotheses on the outputs. Outcome: Also the initial velocity and class independence of the retraction, horizontal gradients for costs on equivalence classes, and symmetry of the Hessian form on tangent vectors.
- **C77** [partial] Elliptope projection is a projection onto horizontal vectors: Sign of the Lyapunov right-hand side makes the claim false: negation by witness; partial: row-orthogonality.
- **C78** [proved] Positive matrices: exp, log, dist and metric are consistent: Geometry layer: transcription of the method over Mathlib reals/complexes/matrices; algebraic proof. LAPACK results enter as contract hypotheses on the outputs. Outcome: Tensors of any shape; including the triangle inequality.
- **C79** [proved] Positive matrices: retraction is positive and second order: As above, and derivative statements via Mathlib `HasDerivAt`. Outcome: Difference to exp bounded by a cubic.
- **C80** [proved] Positive matrices: gradient and Hessian conversion: As above, and derivative statements via Mathlib `HasDerivAt`. Outcome: Second derivative of the cost along geodesics as well.
- **C81** [proved] Positive definite metric is an affine-invariant inner product: Geometry layer: transcription of the method over Mathlib reals/complexes/matrices; algebraic proof. LAPACK results enter as contract hypotheses on the outputs. Outcome: Real and complex, stacks of any size.
- **C82** [proved] Positive definite exp and log are inverse and stay positive definite: Geometry layer: transcription of the method over Mathlib reals/complexes/matrices; algebraic proof. LAPACK results enter as contract hypotheses on the outputs. Outcome: Also zero distance only for equal points, and that log and dist return a result for all points.
- **C83** [proved] Positive definite retraction stays positive definite: Geometry layer: transcription of the method over Mathlib reals/complexes/matrices; algebraic proof. LAPACK results enter as contract hypotheses on the outputs. Outcome: Also initial velocity and acceleration.
- **C84** [proved] Positive definite gradient and Hessian conversion: As above, and derivative statements via Mathlib `HasDerivAt`. Outcome: Also the second derivative of the cost along geodesics.
- **C85** [proved] Random positive definite points are valid: Geometry layer: transcription of the method over Mathlib reals/complexes/matrices; algebraic proof. LAPACK results enter as contract hypotheses on the outputs. Outcome: All draws, whatever QR factorisation is returned.
- **C86** [proved] Special Hermitian positive definite operations keep the determinant at one: Geometry layer: transcription of the method over Mathlib reals/complexes/matrices; algebraic proof. LAPACK results enter as contract hypotheses on the outputs. Outcome: Also the initial velocity of the retraction and that log is tangent and inverse to exp.
- **C87** [proved] Poincare ball operations stay in the ball: Geometry layer: transcription of the method over Mathlib reals/complexes/matrices; algebraic proof. LAPACK results enter as contract hypotheses on the outputs. Outcome: Products of any number of balls of any dimension.
- **C88** [proved] Poincare ball exp and log are inverse and measure distance: Geometry layer: transcription of the method over Mathlib reals/complexes/matrices; algebraic proof. LAPACK results enter as contract hypotheses on the outputs. Outcome: Also the triangle inequality, that Moebius translations are isometries, and log(a, exp(a, v)) = v. exp, log and pair_mean are taken ball by ball, for points that differ in every ball (see C89).
- **C89** [partial] Poincare ball log and pair mean are defined for equal points: 0/0 = NaN in numpy modelled through an option-valued division; negation by witness.
- **C90** [proved] Poincare ball gradient and Hessian conversion: As above, and derivative statements via Mathlib `HasDerivAt`. Outcome: The connection is proved to be the Levi-Civita connection of the metric; exp is proved to follow its geodesics for all times.
- **C91** [partial] Fixed-rank tangent vectors embed isometrically and projection is orthogonal: Geometry layer: transcription of the method over Mathlib reals/complexes/matrices; algebraic proof. LAPACK results enter as contract hypotheses on the outputs.
- **C92** [proved] Fixed-rank gradient conversion recovers the projected ambient gradient: Geometry layer: transcription of the method over Mathlib reals/complexes/matrices; algebraic proof. LAPACK results enter as contract hypotheses on the outputs. Outcome: Also: equal squared singular values always lead to a division by zero.
- **C93** [partial] Fixed-rank retraction returns a valid point: Geometry layer: transcription of the method over Mathlib reals/complexes/matrices; algebraic proof. LAPACK results enter as contract hypotheses on the outputs.
- **C94** [partial] Fixed-rank retraction of the zero vector is the point: np.spacing(1) shift makes the claim false: negation; partial: represents point with shifted singular values.
- **C95** [partial] Group projection returns Lie algebra elements: UnitaryGroup uses multiskew: negation by witness for complex; theorem for SO.
- **C96** [proved] Group retractions and exponential stay in the group: Geometry layer: transcription of the method over Mathlib reals/complexes/matrices; algebraic proof. LAPACK results enter as contract hypotheses on the outputs. Outcome: Whatever factorisations LAPACK returns, with existence of a factorisation; both retractions and exp also have the embedded tangent vector as initial velocity, and exp is a geodesic.
- **C97** [partial] Group log, distance and pair mean: Geometry layer: transcription of the method over Mathlib reals/complexes/matrices; algebraic proof. LAPACK results enter as contract hypotheses on the outputs.
- **C98** [proved] Group Hessian conversion is the Riemannian Hessian: Geometry layer: transcription of the method over Mathlib reals/complexes/matrices; algebraic proof. LAPACK results enter as contract hypotheses on the outputs. Outcome: Also: derivative of the gradient field along curves, and second derivative of the cost along geodesics.
- **C99** [proved] Random rotations have determinant one: Geometry layer: transcription of the method over Mathlib reals/complexes/matrices; algebraic proof. LAPACK results enter as contract hypotheses on the outputs. Outcome: For every draw, every factorisation, every n and k.
- **C100** [partial] Reported dimension is the dimension of the tangent space: finrank of the tangent space as a submodule; negation by witness for HPD/SHPD.
- **C101** [partial] Random tangent vectors are unit-norm tangent vectors: Geometry layer: transcription of the method over Mathlib reals/complexes/matrices; algebraic proof. LAPACK results enter as contract hypotheses on the outputs.
- **C102** [partial] Trust-region subproblem solver returns an exact solution it has found: See the theorem statements.
- **C103** [partial] With use_rand the proposed step stays inside the trust region: See the theorem statements.
- **C104** [proved] Trust-region steps achieve the Cauchy decrease: See the theorem statements. Outcome: Exact arithmetic.
- **C105** [partial] Product methods reject arguments with the wrong number of components: See the theorem statements.
- **C106** [partial] Printing does not change what a run returns: See the theorem statements.
- **C107** [partial] Complex circle distance, log and pair mean: See the theorem statements.
- **C108** [proved] Random fixed-rank points are valid: See the theorem statements. Outcome: Whatever QR factorisations are returned.
- **C109** [proved] Optimizers never leave the manifold: See the theorem statements. Outcome: For all five optimizers and the centroid computation of Nelder-Mead, from closure of the manifold's methods; closure is proved for the Euclidean, symmetric, sphere, sphere-subspace, oblique, complex circle, positive, positive definite, special positive definite, Stiefel, Grassmann and elliptope manifolds, the Poincare ball, the special orthogonal group and products. Not covered: UnitaryGroup, whose converted gradient is wrong (C95_unitary_negation), and PSDFixedRank, PSDFixedRankComplex and FixedRankEmbedded, which are not closed (a retraction may drop the rank, C109_negation_psd). Exact scalars in the manifold instances.
- **C110** [partial] The Riemannian gradient is the gradient of the cost along retractions: See the theorem statements.
- **C111** [proved] Line searches succeed along descent directions and steepest descent makes progress: See the theorem statements. Outcome: For both line searchers, with the budget depending on the cost and the point; C111_descent covers every problem whose gradient represents the derivative, and the Geo theorems show this for every manifold class for which C110 is proved unconditionally. C111_stall proves the other side: after a search that found no step the searchers start the next search with step size zero, so the run makes no progress for its remaining iterations.
- **C112** [proved] Steepest descent has a guaranteed rate: See the theorem statements. Outcome: For the adaptive line searcher with enough evaluations allowed for the number of iterations; the sum ranges over the gradient norms written to the log.
- **C113** [proved] Trust regions makes progress away from critical points: See the theorem statements. Outcome: Without use_rand. Acceptance and the bound on consecutive rejections hold for every rho_regularization >= 0, so for the default; the progress of whole runs is for rho_regularization = 0 and rho_prime < 1/4 (with regularisation the cost may increase, see C25). Instances for every manifold class for which C111 is shown, except the special Hermitian positive definite manifold, which has no Hessian conversion.
- **C114** [proved] Trust regions finds a small gradient within a bounded number of iterations: See the theorem statements. Outcome: Without use_rand; over exact reals. The constants are explicit in the statement; with the default regularisation the guaranteed decrease per accepted step is reduced by the regularisation term and has to stay positive. An iteration in which the inner loop continues after an exact solution raises in exact arithmetic (C102), so the statement is about the iterations that return.
- **C115** [proved] The trust-region step is a tangent vector in the region at least as good as the Cauchy point: See the theorem statements. Outcome: Without use_rand and with the default preconditioner (C28 covers other preconditioners and C104 the preconditioned Cauchy point on a tangent space given abstractly). On the Grassmann manifold the cost must not change along the column space, as for C70. Not covered, though they convert Hessians: UnitaryGroup, whose converted gradient is wrong (C95_unitary_negation), and Elliptope, whose projection does not return tangent vectors (C77_negation), and products with them. On the PSD quotients the points are factors of full rank and the projection is any solution of the Lyapunov equation. SpecialHermitianPositiveDefinite and FixedRankEmbedded have no Hessian conversion. C115_product covers products of any number of factors; C115_factor_* show which manifolds can be factors. Groups cannot, because a product hands the Euclidean Hessian tangent vectors that are not embedded (C39_product_violated, C165_negation_hessian).
- **C116** [proved] The derivative checks measure the order of the error of the Taylor model: See the theorem statements. Outcome: In exact arithmetic; np.polyfit is a parameter (C49 is about how its fits are used). C116_scale shows a limitation: the threshold is absolute, so every problem, its gradient right or wrong, has a positive multiple whose linear model is called exact.
- **C117** [partial] The checks validate their arguments and name what is missing: See the theorem statements.
- **C118** [partial] The checks tell tangent vectors from others and symmetric Hessians from others: See the theorem statements.
- **C119** [partial] dist is a metric on every manifold that implements it: See the theorem statements.
- **C120** [partial] typical_dist gives trust regions a valid radius that covers bounded manifolds: See the theorem statements.
- **C121** [partial] log is minus the gradient of half the squared distance: See the theorem statements.
- **C122** [partial] compute_centroid descends towards the Karcher mean: See the theorem statements.
- **C123** [proved] All autodiff backends return the same, right Euclidean gradients and Hessians: See the theorem statements. Outcome: Relative to contracts on the differentiation libraries, stated in Geo/Props/Backends.lean: the conventions for conjugation of autograd.grad, jax.grad, torch backward/grad, tf.GradientTape, and that jax.jvp and tf.autodiff.ForwardAccumulator return directional derivatives; each contract is shown to be satisfiable. For PyTorch the statements are about calls that return.
- **C124** [partial] Derivatives with respect to arguments the cost ignores are zero arrays: See the theorem statements.
- **C125** [proved] The test helpers derived from a projection agree with the manifolds: See the theorem statements. Outcome: autograd.jacobian is taken to be the array of partial derivatives. The documented restriction to embedded manifolds is shown to be needed (C125_positive_differs).
- **C126** [partial] The quadratic model of trust regions is accurate to second order: See the theorem statements.
- **C127** [proved] Costs with Lipschitz gradients meet the hypotheses of the rate guarantees on embedded manifolds: See the theorem statements. Outcome: Exact arithmetic. The factorisations used by the retractions are taken as specified by IsQR, IsSVD. Complete for the manifolds named.
- **C128** [partial] Derivatives written out by hand in the examples are those of their costs: See the theorem statements.
- **C129** [partial] An example minimises the same cost whichever backend is chosen: See the theorem statements.
- **C130** [proved] The closed-form solutions the examples compare with are minimisers of their costs: See the theorem statements. Outcome: np.linalg.eig, argsort, argmax, pinv and svd are specified by IsEig, IsArgsort, IsArgmax, IsPinv and IsSVD. For repeated eigenvalues eig may return eigenvectors that are not orthogonal: then the bound on the cost still holds for the subspace examples, feasibility needs different eigenvalues.
- **C131** [proved] Steepest descent reaches a small gradient within a bounded number of iterations: See the theorem statements. Outcome: In exact arithmetic, for runs that return. The budget of the line searcher is a hypothesis: contraction_factor ** max_iterations times the largest step it may try must reach the length at which sufficient decrease is certain.
- **C132** [proved] Runs of the examples return near-critical points: See the theorem statements. Outcome: In exact arithmetic, for runs that return. L bounds the norm of the matrix (for the regression, that of the Gram matrix). The number of iterations of trust regions is trIterations, from C114.
- **C133** [proved] Runs depend on the problem only up to isomorphism: See the theorem statements. Outcome: For every number type the optimizers are modelled over. With the Liu-Storey rule the correspondence must also respect inner products of vectors at different points, which that rule takes; with use_rand the initial steps must correspond; for Nelder-Mead and particle swarm the sorts and the random draws must. The hypotheses are met by all the symmetries of C134.
- **C134** [proved] Results do not depend on the choice of coordinates or representatives: See the theorem statements. Outcome: In exact arithmetic, with factorisations as specified by IsSVD, IsQR and IsLyapunov. C134_problems turns each symmetry into a correspondence of problems as in C133. The QR retraction of the Stiefel manifold only has the symmetries acting from the left. For SpecialHermitianPositiveDefinite the congruences have determinants of modulus one, and the Hessian conversion, which the class lacks, is a parameter. On FixedRankEmbedded, whose retraction returns singular vectors that are only determined up to signs, C134_fixed_rank_problems constructs the corresponding results of LAPACK for the second problem (C134_fixed_rank_representations for two representations of the same matrix); a gradient with a division by zero is represented by the zero vector on both sides. C134_psd_runs and C134_elliptope_runs start from factors of full rank.
- **C135** [proved] The number of cost evaluations of a run is bounded in advance: See the theorem statements. Outcome: For every number type the optimizers are modelled over, for runs that return. Evaluations are those listed by the ghost field evals. For Nelder-Mead without an initial simplex (the check of a given one is the wrong way round, C17). The evaluations inside compute_centroid are of the distance, not of the cost.
- **C136** [proved] The mixture of Gaussians notebook fits the mixture by maximum likelihood: See the theorem statements. Outcome: In exact arithmetic; logsumexp is the logarithm of the sum of exponentials. Mathlib's IsMinOn and IsLocalMinOn state (local) minimality; gaussPdf, mixNll and IsMixture are the specification.
- **C137** [partial] The cost of the mixture of Gaussians notebook is geodesically convex: See the theorem statements.
- **C138** [partial] The line search of the mixture of Gaussians notebook is back-tracking that survives singular matrices: See the theorem statements.
- **C139** [partial] Verbosity decides what is printed: See the theorem statements.
- **C140** [partial] The best cost printed is the best cost found so far: See the theorem statements.
- **C141** [proved] The random start of the trust-region subproblem lies in the trust region: See the theorem statements. Outcome: In exact arithmetic. For a negative radius, which the optimizer does not reject, the loop never ends, and for radius zero only for draws of norm zero (C141_negation); in floating point such a draw underflows to zero after finitely many rounds.
- **C142** [proved] Trust regions warns about the fifth consecutive change of the radius: See the theorem statements. Outcome: The message of the warnings is modelled with the thresholds it quotes; the marks TR-, TR+ and blanks are modelled as an ordering.
- **C143** [partial] Distances and logarithms give numbers despite rounding errors: See the theorem statements.
- **C144** [partial] Rounding errors do not drive iterates off the manifold: See the theorem statements.
- **C145** [proved] Trust regions solves its subproblem by conjugate gradients in at most dim steps: See the theorem statements. Outcome: Exact arithmetic (real numbers), zero start (without use_rand, or use_rand with a zero vector). C145_newton assumes mininner <= 0; C145_newton_default is for the default mininner = 1 and excludes the case in which the first inner iteration solves the Newton equation exactly, where the code divides zero by zero (C102). C145_interior_any_radius needs no linearity.
- **C146** [proved] Trust regions converges superlinearly to nondegenerate minimisers: See the theorem statements. Outcome: In exact arithmetic, without use_rand, with mininner smaller and maxinner at least as large as the dimension (as by default for dimension 2 and more). TCGNewton and NewtonModel are the hypotheses: the first holds on the manifolds named in the theorems C146_euclidean to C146_special_orthogonal for every symmetric Hessian, the second is proved for the eigenvector problem on the sphere and for costs with Lipschitz Hessian on Euclidean space, with explicit constants; the size of the neighbourhood is far from optimal (64 C B delta < mu^3).
- **C147** [proved] Steepest descent converges linearly where the gradient dominates the cost: See the theorem statements. Outcome: In exact arithmetic. The line searcher must be able to contract its first step far enough within its maximal number of contractions (hbudget); for the back-tracking searcher this involves the ratio of the initial distance to eps^2, for the adaptive one it does not depend on eps. C147_eigenvector is a run of the default line searcher with explicit constants; C147_strongly_convex and C147_regression give the domination, the quadratic upper bounds are those of C127.
- **C148** [proved] transport is a vector transport, and what it does to lengths: See the theorem statements. Outcome: Exact scalars. The elliptope is left out: its transport need not return a tangent vector (C77). Determinant-one matrices: linear, tangent, identity at the same point; nothing is claimed about lengths. The semidefinite manifolds are for every projection that solves the Lyapunov equation exactly.
- **C149** [proved] Conjugate gradient with an exact line search solves quadratic problems in finitely many steps, whatever the rule for beta: See the theorem statements. Outcome: Exact arithmetic. C149_rules: same runs for all rules; C149_finite: number of iterations, minimality over Krylov spaces, final gradient; C149_exact_hit: the only failure, a division by zero after the minimiser was found (Python-float scalars; with numpy scalars C12_numpy_partial); C149_euclidean, C149_euclidean_search, C149_euclidean_runs: quadratic functions on the Euclidean manifold. The line searchers of the package are not exact; the theorem is about a user-supplied one.
- **C150** [partial] Exceptions raised by the user's functions or by missing methods of the manifold end the run unchanged, and leave the optimizer usable: See the theorem statements.
- **C151** [proved] A Riemannian gradient supplied by the user fails on product manifolds, and so does Nelder-Mead: See the theorem statements. Outcome: A defect of the code, stated as it is. Trust regions without use_rand: with it the plain list is first added to a vector, which concatenates lists and is outside the model of values. C151_centroid_example is a run that ends with TypeError.
- **C152** [proved] Which optimizers can be used on which manifolds: See the theorem statements. Outcome: The table is computed from the class statements, method definitions and calls on self and super() recorded in Core/Model/Classes.lean, for all classes and methods. Whether a method that is implemented returns (and not, for example, raises LinAlgError) is a hypothesis of the positive theorems. For products, C152_product is about the methods of the Product model called with arbitrary values; the theorems on optimizers assume that the methods return, or raise, as C152_product says. Nelder-Mead is not claimed to run on products: its centroid fails there (C151).
- **C153** [proved] How fast conjugate gradient with an exact line search minimises a quadratic function: See the theorem statements. Outcome: With real arithmetic and an exact line search, as in C149. For steepest descent the line search is assumed to stay at a critical point when searching along the zero direction.
- **C154** [proved] How many Hessian products the trust-region subproblem takes: See the theorem statements. Outcome: Exact arithmetic, started at the zero vector (use_rand off), as in C145.
- **C155** [proved] Nelder-Mead only improves its simplex, except when it shrinks, and shrinks only for a reason: See the theorem statements. Outcome: Costs without NaN for the ordered costs; real arithmetic for the statements about Euclidean spaces. The centroid is a parameter there; C155_centroid_outside_hull shows in exact rational arithmetic that compute_centroid does not return a point of the convex hull in general.
- **C156** [proved] How fast steepest descent minimises convex costs: See the theorem statements. Outcome: Real arithmetic. The line searcher must be able to contract its first trial step to the size accepted under the quadratic bound within max_iterations; this is a hypothesis on the parameters.
- **C157** [proved] Hager-Zhang directions of conjugate gradient always descend, and the method converges linearly on strongly convex costs: See the theorem statements. Outcome: Real arithmetic; a run in which the rule divides by zero raises and is not covered. For the speed the line searcher must be able to contract its first trial step to the size accepted under the quadratic bound within max_iterations. C157_negation is about Fletcher-Reeves only.
- **C158** [partial] The units of the cost do not matter: See the theorem statements.
- **C159** [proved] The printed tables are aligned and their costs can be read back exactly: See the theorem statements. Outcome: Python's format codes d, e, f and g are modelled on rationals (no negative zero); binary64 without bounds on the exponent for reading back (no subnormal numbers), with the bounds for the lengths. int(np.log10(max_iterations)) is taken without rounding. The runs are those that return; ConjugateGradient with verbosity 2, as higher ones print further lines between the rows. C159_negation_norm: gradient norms cannot be read back.
- **C160** [proved] Conjugate gradient that always restarts is steepest descent: See the theorem statements. Outcome: Real arithmetic. The two runs are given the same clock readings.
- **C161** [partial] A backend can be used exactly if it is installed, and sees the numbers of the arrays it is given: See the theorem statements.
- **C162** [proved] A run of steepest descent can be interrupted and resumed: See the theorem statements. Outcome: The property as stated, with its exceptions: C162_negation_fresh, C162_negation_conjugateGradient and C162_negation_trustRegions show that they are real.
- **C163** [partial] From a point where the cost is defined, optimizers return a point where it is: See the theorem statements.
- **C164** [partial] Looser limits extend a run and do not make its result worse: See the theorem statements.
- **C165** [proved] The order of the factors of a product does not matter, and a product of one manifold is that manifold: See the theorem statements. Outcome: The property as stated, with its exception: C165_negation_hessian. C165_norms lists the classes whose norm is the root of the inner product. FixedRankEmbedded (tangent vectors of another type than points) and UnitaryGroup (complex inner products, on which the line searchers compare complex numbers) are not factors in the model of products used for runs; C165_lists covers them as factors.
- **C166** [proved] pair_mean returns the intrinsic mean of two points on every manifold that implements it: See the theorem statements. Outcome: The property as stated, in real arithmetic. C166_midpoint is the general argument; C166_negation_opposite shows that the exceptions about the eigenvalue -1 are needed, C89_negation the one about PoincareBall. C166_unitary_unique and C166_special_orthogonal_unique, for the distances as computed C166_special_orthogonal_single, show that no other point is half way on the groups; C166_negation_unique that a point and its negative have two such points. On stacks of rotations other points can have the same sum, because dist vanishes between different points (C119_special_orthogonal_negation); that the mean is half way holds there, too (C166_so_stack_partial).
- **C167** [proved] The checks of derivatives and retractions print what they found: See the theorem statements. Outcome: The property as stated. C167_numbers is about the format code g; C167_negation_equation shows the sentence about the three numbers. Negative zero is not modelled, nor is np.log10 of a vanishing distance in check_retraction.
- **C168** [proved] The figures of the checks show the errors, their slope and reference lines of the right slopes: See the theorem statements. Outcome: The property as stated, in real arithmetic. Points with error 0 do not appear on logarithmic axes and do not count for the slope. If the model is exact up to 1e-12 the thick line goes along all step sizes and its slope is what the code returns then (fitted to the errors, not to their logarithms). Labels, titles and colours are not modelled.

## Mutation log

The theorems were tested with wrong edits of the model; seeded/LOG.jsonl lists them. Entries without
`"attribution": "exact"` have a known fault: the script could list theorems that did not fail, so they
do not show that the theorem of the claim itself failed. seeded/README.md describes the fault. The
proofs do not depend on the log.
