{
 "claims": [
  {
   "property": "C01",
   "status": "proved",
   "theorems": [
    "Verif.Opt.C01_conjugateGradient",
    "Verif.Opt.C01_defaults",
    "Verif.Opt.C01_nelderMead",
    "Verif.Opt.C01_particleSwarm",
    "Verif.Opt.C01_steepestDescent",
    "Verif.Opt.C01_stopping_rule",
    "Verif.Opt.C01_trustRegions"
   ],
   "note": "Decision table of the stopping rule for every configuration, plus: every completed run of each of the five optimizers stops for exactly the first criterion that holds at its last iteration, and for none before."
  },
  {
   "property": "C02",
   "status": "proved",
   "theorems": [
    "Verif.Opt.C02_conjugateGradient",
    "Verif.Opt.C02_nelderMead",
    "Verif.Opt.C02_particleSwarm",
    "Verif.Opt.C02_steepestDescent",
    "Verif.Opt.C02_trustRegions"
   ],
   "note": "Every run ends after at most max(1, max_iterations) iterations and reports the exact count."
  },
  {
   "property": "C03",
   "status": "proved",
   "theorems": [
    "Verif.Opt.C03_adaptive",
    "Verif.Opt.C03_backTracking"
   ],
   "note": "Bounds on the number of evaluations, both built-in line searchers."
  },
  {
   "property": "C04",
   "status": "proved",
   "theorems": [
    "Verif.Opt.C04_adaptive",
    "Verif.Opt.C04_backTracking"
   ],
   "note": "Both built-in line searchers."
  },
  {
   "property": "C05",
   "status": "proved",
   "theorems": [
    "Verif.Opt.C05_adaptive",
    "Verif.Opt.C05_backTracking"
   ],
   "note": "Both built-in line searchers."
  },
  {
   "property": "C06",
   "status": "proved",
   "theorems": [
    "Verif.Opt.C06_adaptive",
    "Verif.Opt.C06_backTracking"
   ],
   "note": "Both built-in line searchers."
  },
  {
   "property": "C07",
   "status": "proved",
   "theorems": [
    "Verif.Opt.C07_builtin",
    "Verif.Opt.C07_steepestDescent"
   ],
   "note": "Needs NaN-free costs; any line searcher that never ascends, and both built-in ones."
  },
  {
   "property": "C08",
   "status": "proved",
   "theorems": [
    "Verif.Opt.C08_builtin",
    "Verif.Opt.C08_conjugateGradient"
   ],
   "note": "Needs NaN-free costs; any line searcher that never ascends, and both built-in ones."
  },
  {
   "property": "C09",
   "status": "partial",
   "theorems": [
    "Verif.Opt.C09_conjugateGradient",
    "Verif.Opt.C09_steepestDescent_gradientNorm_stale",
    "Verif.Opt.C09_steepestDescent_partial",
    "Verif.Opt.C09_trustRegions"
   ],
   "note": "False for steepest descent: gradient_norm is that of the previous iterate (negation proved). Proved for conjugate gradient and trust regions, and for point and cost in steepest descent."
  },
  {
   "property": "C10",
   "status": "proved",
   "theorems": [
    "Verif.Opt.C10_descentCalls",
    "Verif.Opt.C10_negative"
   ],
   "note": "The line search is always called with the stated slope, negative when the preconditioner is positive."
  },
  {
   "property": "C11",
   "status": "proved",
   "theorems": [
    "Verif.Opt.C11_direction",
    "Verif.Opt.C11_fletcherReeves",
    "Verif.Opt.C11_formulas",
    "Verif.Opt.C11_hagerZhang",
    "Verif.Opt.C11_hestenesStiefel",
    "Verif.Opt.C11_liuStorey",
    "Verif.Opt.C11_names",
    "Verif.Opt.C11_polakRibiere"
   ],
   "note": "All five rules, restart test and direction."
  },
  {
   "property": "C12",
   "status": "partial",
   "theorems": [
    "Verif.Opt.C12_numpy_partial",
    "Verif.Opt.C12_partial",
    "Verif.Opt.C12_zeroDivision"
   ],
   "note": "False: on a manifold with Python float inner products a zero gradient raises ZeroDivisionError (negation proved). Proved when no division raises."
  },
  {
   "property": "C13",
   "status": "partial",
   "theorems": [
    "Verif.Opt.C13_partial",
    "Verif.Opt.C13_returns_nan"
   ],
   "note": "False: steepest descent started at a critical point can return NaN (negation proved). Proved when the threshold is met before a step."
  },
  {
   "property": "C14",
   "status": "proved",
   "theorems": [
    "Verif.Opt.C14_conjugateGradient",
    "Verif.Opt.C14_reuse",
    "Verif.Opt.C14_steepestDescent"
   ],
   "note": "Independence of runs and reuse of the line searcher."
  },
  {
   "property": "C15",
   "status": "partial",
   "theorems": [
    "Verif.Opt.C15_nelderMead_partial",
    "Verif.Opt.C15_nelderMead_stale",
    "Verif.Opt.C15_particleSwarm_partial",
    "Verif.Opt.C15_particleSwarm_stale"
   ],
   "note": "False: limits computed in the first run stay on the object (negation proved for every history). Proved for histories on manifolds of one dimension."
  },
  {
   "property": "C16",
   "status": "proved",
   "theorems": [
    "Verif.Opt.C16_best_never_increases",
    "Verif.Opt.C16_nelderMead"
   ],
   "note": "NaN-free costs; any routine that sorts by cost, any centroid routine."
  },
  {
   "property": "C17",
   "status": "partial",
   "theorems": [
    "Verif.Opt.C17_accepts_other",
    "Verif.Opt.C17_partial",
    "Verif.Opt.C17_rejects_simplex"
   ],
   "note": "False: the length test is inverted (negation proved for every dimension and list). Proved for random simplices and non-sequences."
  },
  {
   "property": "C18",
   "status": "proved",
   "theorems": [
    "Verif.Opt.C18_nelderMead"
   ],
   "note": "Simplices of dim+1 >= 2 points, as drawn by the optimizer."
  },
  {
   "property": "C19",
   "status": "proved",
   "theorems": [
    "Verif.Opt.C19_particleSwarm",
    "Verif.Opt.C19_personal_best"
   ],
   "note": "NaN-free costs; global and personal bests."
  },
  {
   "property": "C20",
   "status": "partial",
   "theorems": [
    "Verif.Opt.C20_last_positions_ignored",
    "Verif.Opt.C20_partial"
   ],
   "note": "False: positions of the last move are never evaluated (negation proved). Proved: all other positions are."
  },
  {
   "property": "C21",
   "status": "partial",
   "theorems": [
    "Verif.Opt.C21_list_modified",
    "Verif.Opt.C21_partial",
    "Verif.Opt.C21_tuple_fails"
   ],
   "note": "False: a list is overwritten and a tuple raises (negations proved). Proved for runs that stop at the first check."
  },
  {
   "property": "C22",
   "status": "partial",
   "theorems": [
    "Verif.Opt.C22_conjugateGradient_undercounts",
    "Verif.Opt.C22_nelderMead_off_by_one",
    "Verif.Opt.C22_particleSwarm_partial",
    "Verif.Opt.C22_steepestDescent_undercounts"
   ],
   "note": "False for steepest descent, conjugate gradient and Nelder-Mead (undercounts proved for every run). Proved for particle swarm."
  },
  {
   "property": "C23",
   "status": "proved",
   "theorems": [
    "Verif.Opt.C23_default_radii",
    "Verif.Opt.C23_radius"
   ],
   "note": "Includes infinite radii; default radii for positive typical_dist or dimension."
  },
  {
   "property": "C24",
   "status": "proved",
   "theorems": [
    "Verif.Opt.C24_accepted_bound",
    "Verif.Opt.C24_monotone",
    "Verif.Opt.C24_result",
    "Verif.Opt.C24_step_decreases"
   ],
   "note": "Bound for finite values; monotone for rho_regularization = 0 including infinities and NaN."
  },
  {
   "property": "C25",
   "status": "partial",
   "theorems": [
    "Verif.Opt.C25_default_not_monotone",
    "Verif.Opt.C25_increase_bounded_partial"
   ],
   "note": "False (a run with default options that increases the cost). Proved: increase per step below max(1,|f|)*eps*rho_regularization."
  },
  {
   "property": "C26",
   "status": "proved",
   "theorems": [
    "Verif.Opt.C26_nan_rejected"
   ],
   "note": "NaN cost or NaN in the predicted decrease."
  },
  {
   "property": "C27",
   "status": "proved",
   "theorems": [
    "Verif.Opt.C27_rejection_shrinks"
   ],
   "note": "Holds for every scalar type with lawful comparisons."
  },
  {
   "property": "C28",
   "status": "proved",
   "theorems": [
    "Verif.Opt.C28_step_norm",
    "Verif.Opt.C28_step_norm_precon"
   ],
   "note": "Exact arithmetic, linear self-adjoint Hessian, zero start; also for a preconditioner in its own norm."
  },
  {
   "property": "C29",
   "status": "proved",
   "theorems": [
    "Verif.Opt.C29_model_decrease"
   ],
   "note": "Exact arithmetic, linear self-adjoint Hessian, zero start, SPD preconditioner."
  },
  {
   "property": "C30",
   "status": "partial",
   "theorems": [
    "Verif.Opt.C30_dimension_zero_raises",
    "Verif.Opt.C30_inner_bound",
    "Verif.Opt.C30_nonpositive_raises",
    "Verif.Opt.C30_returns_partial"
   ],
   "note": "Bound proved. False for maxinner <= 0 (UnboundLocalError, hence on manifolds of dimension 0). Proved: a step is returned for maxinner >= 1 with numpy-valued inner products."
  },
  {
   "property": "C31",
   "status": "partial",
   "theorems": [
    "Verif.Opt.C31_conjugateGradient",
    "Verif.Opt.C31_empty_logs",
    "Verif.Opt.C31_no_log",
    "Verif.Opt.C31_steepestDescent"
   ],
   "note": "Proved for steepest descent and conjugate gradient; false for the other three, whose logs stay empty (negation proved)."
  },
  {
   "property": "C32",
   "status": "proved",
   "theorems": [
    "Verif.Core.C32_compound",
    "Verif.Core.C32_malformed",
    "Verif.Core.C32_single",
    "Verif.Core.C32_tuple"
   ],
   "note": "All layouts, all points, malformed points included."
  },
  {
   "property": "C33",
   "status": "proved",
   "theorems": [
    "Verif.Core.C33_flatten_group",
    "Verif.Core.C33_group_flatten",
    "Verif.Core.C33_plain"
   ],
   "note": "Both directions, every compound layout."
  },
  {
   "property": "C34",
   "status": "proved",
   "theorems": [
    "Verif.Core.C34_gradient",
    "Verif.Core.C34_hessian",
    "Verif.Core.C34_passes_exceptions"
   ],
   "note": "Exactly which returned values raise; exceptions of the user's function pass through."
  },
  {
   "property": "C35",
   "status": "proved",
   "theorems": [
    "Verif.Core.C35_constructor"
   ],
   "note": "cost=None passes validation, as the code has it."
  },
  {
   "property": "C36",
   "status": "proved",
   "theorems": [
    "Verif.Core.C36_operators",
    "Verif.Core.C36_product"
   ],
   "note": "For every history of accesses, with generators that answer the same on each call."
  },
  {
   "property": "C37",
   "status": "proved",
   "theorems": [
    "Verif.Core.C37_at_most_once",
    "Verif.Core.C37_on_demand",
    "Verif.Core.C37_stable",
    "Verif.Core.C37_successful_backend"
   ],
   "note": "For every history of accesses."
  },
  {
   "property": "C38",
   "status": "proved",
   "theorems": [
    "Verif.Core.C38_immutable"
   ],
   "note": "For every sequence of assignments."
  },
  {
   "property": "C39",
   "status": "partial",
   "theorems": [
    "Verif.Core.C39_partial",
    "Verif.Core.C39_problem_partial",
    "Verif.Core.C39_product_not_embedded",
    "Verif.Core.C39_product_trivial_embedding",
    "Verif.Core.C39_product_violated"
   ],
   "note": "False on products: Product never embeds (negation proved). Proved on every other manifold and on products whose factors embed trivially."
  },
  {
   "property": "C40",
   "status": "partial",
   "theorems": [
    "Verif.Core.C40_integer_layout",
    "Verif.Core.C40_partial",
    "Verif.Core.C40_single_factor_raises"
   ],
   "note": "False for a product of one manifold with one array: the bare array is rejected (negation proved). Proved otherwise."
  },
  {
   "property": "C41",
   "status": "partial",
   "theorems": [
    "Verif.Core.C41_partial",
    "Verif.Core.C41_user_gradient_is_list"
   ],
   "note": "False: a user-supplied Riemannian gradient on a product is always a plain list, whose negation raises TypeError (negation proved for every history). Proved for converted Euclidean gradients."
  },
  {
   "property": "C42",
   "status": "proved",
   "theorems": [
    "Verif.Core.C42_decorator"
   ],
   "note": "Every parameter list."
  },
  {
   "property": "C43",
   "status": "proved",
   "theorems": [
    "Verif.Core.C43_compound",
    "Verif.Core.C43_hessian_operator",
    "Verif.Core.C43_odd",
    "Verif.Core.C43_single"
   ],
   "note": "Every number of arguments."
  },
  {
   "property": "C44",
   "status": "proved",
   "theorems": [
    "Verif.Core.C44_dimension",
    "Verif.Core.C44_layout",
    "Verif.Core.C44_num_values",
    "Verif.Core.C44_sequence"
   ],
   "note": "Decision table of the constructor; number of values of every well-formed point."
  },
  {
   "property": "C45",
   "status": "proved",
   "theorems": [
    "Verif.Core.C45_componentwise",
    "Verif.Core.C45_componentwise_more",
    "Verif.Core.C45_exp_log",
    "Verif.Core.C45_metric",
    "Verif.Core.C45_nested_rejected",
    "Verif.Core.C45_random_point"
   ],
   "note": "Each method, plus exp/log inverses of the factors lift to the product."
  },
  {
   "property": "C46",
   "status": "partial",
   "theorems": [
    "Verif.Core.C46_empty_raises",
    "Verif.Core.C46_partial"
   ],
   "note": "False for the empty product, which raises TypeError. Proved for all others."
  },
  {
   "property": "C47",
   "status": "proved",
   "theorems": [
    "Verif.Core.C47_fixedRank_mismatch",
    "Verif.Core.C47_length_mismatch",
    "Verif.Core.C47_vector_space"
   ],
   "note": "Components are arrays or fixed-rank tangent vectors in any arrangement; operations are those of the vector space of families of arrays. C47_fixedRank_mismatch: addition of fixed-rank tangent vectors does not check lengths, but a shorter operand never gives a result."
  },
  {
   "property": "C48",
   "status": "proved",
   "theorems": [
    "Verif.Core.C48_header",
    "Verif.Core.C48_row",
    "Verif.Core.C48_widths"
   ],
   "note": "Non-negative padding."
  },
  {
   "property": "C49",
   "status": "proved",
   "theorems": [
    "Verif.Core.C49_best_window",
    "Verif.Core.C49_short_data",
    "Verif.Core.C49_short_window",
    "Verif.Core.C49_succeeds"
   ],
   "note": "polyfit is a parameter; windows of at most two points always raise because polyfit returns no residual."
  },
  {
   "property": "C50",
   "status": "proved",
   "theorems": [
    "Verif.Geo.C50_complementary",
    "Verif.Geo.C50_orthogonal",
    "Verif.Geo.C50_projections",
    "Verif.Geo.C50_transpose"
   ],
   "note": "Real and complex, every stack."
  },
  {
   "property": "C51",
   "status": "proved",
   "theorems": [
    "Verif.Geo.C51_factorisation",
    "Verif.Geo.C51_unique"
   ],
   "note": "Any number of rows and columns, real and complex; uniqueness for independent columns."
  },
  {
   "property": "C52",
   "status": "proved",
   "theorems": [
    "Verif.Geo.C52_exp",
    "Verif.Geo.C52_inverse",
    "Verif.Geo.C52_log"
   ],
   "note": "Exactly Mathlib's matrix exponential; logarithm characterised as the only Hermitian solution of exp(B) = A."
  },
  {
   "property": "C53",
   "status": "proved",
   "theorems": [
    "Verif.Geo.C53_dist",
    "Verif.Geo.C53_exp_log",
    "Verif.Geo.C53_inner",
    "Verif.Geo.C53_pair_mean",
    "Verif.Geo.C53_transport_conversion"
   ],
   "note": "Real and complex tensors of any shape."
  },
  {
   "property": "C54",
   "status": "proved",
   "theorems": [
    "Verif.Geo.C54_hessian",
    "Verif.Geo.C54_projection",
    "Verif.Geo.C54_stays"
   ],
   "note": "Every stack."
  },
  {
   "property": "C55",
   "status": "partial",
   "theorems": [
    "Verif.Geo.C55_complex_circle_partial",
    "Verif.Geo.C55_elliptope_negation",
    "Verif.Geo.C55_elliptope_partial",
    "Verif.Geo.C55_fixedRank",
    "Verif.Geo.C55_grassmann",
    "Verif.Geo.C55_group",
    "Verif.Geo.C55_hyperbolic",
    "Verif.Geo.C55_oblique_partial",
    "Verif.Geo.C55_posdef",
    "Verif.Geo.C55_positive",
    "Verif.Geo.C55_psd",
    "Verif.Geo.C55_shpd_fails",
    "Verif.Geo.C55_shpd_partial",
    "Verif.Geo.C55_sphere_partial",
    "Verif.Geo.C55_sphere_subspace",
    "Verif.Geo.C55_stiefel",
    "Verif.Geo.C55_symmetric",
    "Verif.Geo.C55_symmetric_witness"
   ],
   "note": "False for Symmetric, SkewSymmetric, both sphere-subspace manifolds and the special Hermitian positive definite manifold (bound to the base class projection) and for the elliptope (sign error, see C77): there the result is tangent only for tangent arguments. Proved on the sphere, oblique, Stiefel, Grassmann, positive, positive definite, fixed-rank positive semidefinite and fixed-rank manifolds, the groups, the complex circle and the Poincare ball."
  },
  {
   "property": "C56",
   "status": "proved",
   "theorems": [
    "Verif.Geo.C56_metric",
    "Verif.Geo.C56_projection",
    "Verif.Geo.C56_tangent"
   ],
   "note": "Tensors of any shape."
  },
  {
   "property": "C57",
   "status": "proved",
   "theorems": [
    "Verif.Geo.C57_exp_velocity",
    "Verif.Geo.C57_retraction_velocity",
    "Verif.Geo.C57_stays"
   ],
   "note": "Includes both derivatives at zero."
  },
  {
   "property": "C58",
   "status": "proved",
   "theorems": [
    "Verif.Geo.C58_clamp",
    "Verif.Geo.C58_dist_exp",
    "Verif.Geo.C58_metric"
   ],
   "note": "Including the triangle inequality."
  },
  {
   "property": "C59",
   "status": "partial",
   "theorems": [
    "Verif.Geo.C59_antipodal",
    "Verif.Geo.C59_exp_log_iff",
    "Verif.Geo.C59_norm_log_iff",
    "Verif.Geo.C59_partial"
   ],
   "note": "False: because of the added machine epsilon both equations hold only for a = b (proved for every pair of points). Proved: exact size of the error, below epsilon for points at most a right angle apart."
  },
  {
   "property": "C60",
   "status": "proved",
   "theorems": [
    "Verif.Geo.C60_derivative",
    "Verif.Geo.C60_symmetric"
   ],
   "note": "Derivative along every differentiable curve on the sphere."
  },
  {
   "property": "C61",
   "status": "proved",
   "theorems": [
    "Verif.Geo.C61_pair_mean"
   ],
   "note": "All pairs of points that are not antipodal."
  },
  {
   "property": "C62",
   "status": "partial",
   "theorems": [
    "Verif.Geo.C62_hessian_partial",
    "Verif.Geo.C62_projection_partial",
    "Verif.Geo.C62_projectors_partial",
    "Verif.Geo.C62_random_point_partial",
    "Verif.Geo.C62_rank_deficient",
    "Verif.Geo.C62_stays_partial"
   ],
   "note": "False for span matrices without full column rank, for every QR factorisation (negation proved for every such matrix). Proved for full column rank."
  },
  {
   "property": "C63",
   "status": "proved",
   "theorems": [
    "Verif.Geo.C63_columns",
    "Verif.Geo.C63_distance",
    "Verif.Geo.C63_hessian",
    "Verif.Geo.C63_hessian_columns",
    "Verif.Geo.C63_projection",
    "Verif.Geo.C63_stays"
   ],
   "note": "The operations equal the sphere's on each column; log has the same epsilon error (see C59)."
  },
  {
   "property": "C64",
   "status": "proved",
   "theorems": [
    "Verif.Geo.C64_derivative",
    "Verif.Geo.C64_hessian",
    "Verif.Geo.C64_projection",
    "Verif.Geo.C64_retraction",
    "Verif.Geo.C64_velocity"
   ],
   "note": "Also initial velocity of the retraction and the Hessian as derivative of the gradient field."
  },
  {
   "property": "C65",
   "status": "partial",
   "theorems": [
    "Verif.Geo.C65_exp_unit_iff",
    "Verif.Geo.C65_partial",
    "Verif.Geo.C65_witness"
   ],
   "note": "False: the result buffer is real, so the imaginary part is lost; exp stays on the manifold only when it ends at a real point (proved for every input). Proved: the result is the real part of the geodesic."
  },
  {
   "property": "C66",
   "status": "proved",
   "theorems": [
    "Verif.Geo.C66_metric",
    "Verif.Geo.C66_projection",
    "Verif.Geo.C66_transport_gradient"
   ],
   "note": "Stacks of any size."
  },
  {
   "property": "C67",
   "status": "proved",
   "theorems": [
    "Verif.Geo.C67_polar_orthonormal",
    "Verif.Geo.C67_qr_factor",
    "Verif.Geo.C67_qr_orthonormal",
    "Verif.Geo.C67_velocity",
    "Verif.Geo.C67_zero"
   ],
   "note": "For every factorisation the linear algebra library may return; the QR retraction's initial velocity is proved as well."
  },
  {
   "property": "C68",
   "status": "proved",
   "theorems": [
    "Verif.Geo.C68_initial",
    "Verif.Geo.C68_orthonormal"
   ],
   "note": "Initial velocity as well."
  },
  {
   "property": "C69",
   "status": "proved",
   "theorems": [
    "Verif.Geo.C69_derivative",
    "Verif.Geo.C69_symmetric"
   ],
   "note": "Derivative along every differentiable curve on the manifold."
  },
  {
   "property": "C70",
   "status": "proved",
   "theorems": [
    "Verif.Geo.C70_derivative",
    "Verif.Geo.C70_metric",
    "Verif.Geo.C70_projection",
    "Verif.Geo.C70_real",
    "Verif.Geo.C70_symmetric",
    "Verif.Geo.C70_transport_gradient"
   ],
   "note": "Stated for the complex class over any of the two fields; the real class is proved equal to it over the reals."
  },
  {
   "property": "C71",
   "status": "proved",
   "theorems": [
    "Verif.Geo.C71_exp",
    "Verif.Geo.C71_exp_initial",
    "Verif.Geo.C71_random_point",
    "Verif.Geo.C71_real",
    "Verif.Geo.C71_retraction",
    "Verif.Geo.C71_retraction_initial",
    "Verif.Geo.C71_total"
   ],
   "note": "Also the exact form of exp, initial velocities and that every call returns a result."
  },
  {
   "property": "C72",
   "status": "proved",
   "theorems": [
    "Verif.Geo.C72_exp",
    "Verif.Geo.C72_invariant",
    "Verif.Geo.C72_symmetric",
    "Verif.Geo.C72_zero"
   ],
   "note": "Also dist(X, exp(X, Z)) = norm(Z) up to singular values of pi/2."
  },
  {
   "property": "C73",
   "status": "proved",
   "theorems": [
    "Verif.Geo.C73_exp_log",
    "Verif.Geo.C73_horizontal",
    "Verif.Geo.C73_log_exp",
    "Verif.Geo.C73_norm",
    "Verif.Geo.C73_total"
   ],
   "note": "Also norm(log) = dist, log(X, exp(X, Z)) = Z, and exactly when log raises."
  },
  {
   "property": "C74",
   "status": "proved",
   "theorems": [
    "Verif.Geo.C74_gradient",
    "Verif.Geo.C74_hessian",
    "Verif.Geo.C74_projection",
    "Verif.Geo.C74_transport"
   ],
   "note": "Real and complex, every size; also the gradient of costs on equivalence classes."
  },
  {
   "property": "C75",
   "status": "proved",
   "theorems": [
    "Verif.Geo.C75_exp_log",
    "Verif.Geo.C75_invariant",
    "Verif.Geo.C75_log_exp",
    "Verif.Geo.C75_metric",
    "Verif.Geo.C75_nearest",
    "Verif.Geo.C75_total"
   ],
   "note": "Also: the distance is the smallest Frobenius distance to a representative of the target and a metric on equivalence classes; log inverts exp for vectors that are not too long; every call returns a result."
  },
  {
   "property": "C76",
   "status": "proved",
   "theorems": [
    "Verif.Geo.C76_gradient_horizontal",
    "Verif.Geo.C76_hessian_field",
    "Verif.Geo.C76_hessian_symm",
    "Verif.Geo.C76_retraction_class",
    "Verif.Geo.C76_tangent",
    "Verif.Geo.C76_unit_rows",
    "Verif.Geo.C76_velocity"
   ],
   "note": "Also the initial velocity and class independence of the retraction, horizontal gradients for costs on equivalence classes, and symmetry of the Hessian form on tangent vectors."
  },
  {
   "property": "C77",
   "status": "partial",
   "theorems": [
    "Verif.Geo.C77_negation",
    "Verif.Geo.C77_partial",
    "Verif.Geo.C77_transport_partial"
   ],
   "note": "False: the right-hand side handed to the Lyapunov solver has the wrong sign, so the vertical part is doubled instead of removed; negation proved at every orthogonal point of size two or more. Proved: rows stay orthogonal, tangent vectors are fixed, and the exact condition under which the result is horizontal or unchanged by a second application."
  },
  {
   "property": "C78",
   "status": "proved",
   "theorems": [
    "Verif.Geo.C78_dist",
    "Verif.Geo.C78_exp_log",
    "Verif.Geo.C78_metric"
   ],
   "note": "Tensors of any shape; including the triangle inequality."
  },
  {
   "property": "C79",
   "status": "proved",
   "theorems": [
    "Verif.Geo.C79_positive",
    "Verif.Geo.C79_second_order"
   ],
   "note": "Difference to exp bounded by a cubic."
  },
  {
   "property": "C80",
   "status": "proved",
   "theorems": [
    "Verif.Geo.C80_gradient",
    "Verif.Geo.C80_second_derivative",
    "Verif.Geo.C80_symmetric",
    "Verif.Geo.C80_transport"
   ],
   "note": "Second derivative of the cost along geodesics as well."
  },
  {
   "property": "C81",
   "status": "proved",
   "theorems": [
    "Verif.Geo.C81_invariant",
    "Verif.Geo.C81_metric"
   ],
   "note": "Real and complex, stacks of any size."
  },
  {
   "property": "C82",
   "status": "proved",
   "theorems": [
    "Verif.Geo.C82_dist_exp",
    "Verif.Geo.C82_dist_log",
    "Verif.Geo.C82_dist_symm",
    "Verif.Geo.C82_dist_zero",
    "Verif.Geo.C82_exp",
    "Verif.Geo.C82_exp_log",
    "Verif.Geo.C82_log_exp",
    "Verif.Geo.C82_total"
   ],
   "note": "Also zero distance only for equal points, and that log and dist return a result for all points."
  },
  {
   "property": "C83",
   "status": "proved",
   "theorems": [
    "Verif.Geo.C83_retraction",
    "Verif.Geo.C83_velocity"
   ],
   "note": "Also initial velocity and acceleration."
  },
  {
   "property": "C84",
   "status": "proved",
   "theorems": [
    "Verif.Geo.C84_gradient",
    "Verif.Geo.C84_second_derivative",
    "Verif.Geo.C84_symmetric"
   ],
   "note": "Also the second derivative of the cost along geodesics."
  },
  {
   "property": "C85",
   "status": "proved",
   "theorems": [
    "Verif.Geo.C85_eigenvalues",
    "Verif.Geo.C85_random_point",
    "Verif.Geo.C85_special"
   ],
   "note": "All draws, whatever QR factorisation is returned."
  },
  {
   "property": "C86",
   "status": "proved",
   "theorems": [
    "Verif.Geo.C86_exp",
    "Verif.Geo.C86_gradient",
    "Verif.Geo.C86_log",
    "Verif.Geo.C86_log_exp",
    "Verif.Geo.C86_points",
    "Verif.Geo.C86_projection",
    "Verif.Geo.C86_transport",
    "Verif.Geo.C86_velocity"
   ],
   "note": "Also the initial velocity of the retraction and that log is tangent and inverse to exp."
  },
  {
   "property": "C87",
   "status": "proved",
   "theorems": [
    "Verif.Geo.C87_gyrogroup",
    "Verif.Geo.C87_mobius",
    "Verif.Geo.C87_stays"
   ],
   "note": "Products of any number of balls of any dimension."
  },
  {
   "property": "C88",
   "status": "proved",
   "theorems": [
    "Verif.Geo.C88_exp_log",
    "Verif.Geo.C88_log_exp",
    "Verif.Geo.C88_metric",
    "Verif.Geo.C88_pair_mean"
   ],
   "note": "Also the triangle inequality, that Moebius translations are isometries, and log(a, exp(a, v)) = v. exp, log and pair_mean are taken ball by ball, for points that differ in every ball (see C89)."
  },
  {
   "property": "C89",
   "status": "partial",
   "theorems": [
    "Verif.Geo.C89_negation",
    "Verif.Geo.C89_partial"
   ],
   "note": "False at every point: equal points give 0/0, so log and pair_mean are NaN (proved for all points). Proved: NaN appears exactly in the balls where the points agree."
  },
  {
   "property": "C90",
   "status": "proved",
   "theorems": [
    "Verif.Geo.C90_covariant",
    "Verif.Geo.C90_geodesic",
    "Verif.Geo.C90_gradient",
    "Verif.Geo.C90_symmetric"
   ],
   "note": "The connection is proved to be the Levi-Civita connection of the metric; exp is proved to follow its geodesics for all times."
  },
  {
   "property": "C91",
   "status": "partial",
   "theorems": [
    "Verif.Geo.C91_embedding",
    "Verif.Geo.C91_isometry",
    "Verif.Geo.C91_lowRank_partial",
    "Verif.Geo.C91_negation",
    "Verif.Geo.C91_projection",
    "Verif.Geo.C91_tangent_space",
    "Verif.Geo.C91_transport"
   ],
   "note": "Also: the tangent space is exactly the set of velocities of factored curves. False for low-rank ambient tuples: the transposed application omits the transpose of S, so the result is not even tangent (negation proved at every point of positive rank). Proved for dense vectors and for tuples with symmetric S, in particular transport."
  },
  {
   "property": "C92",
   "status": "proved",
   "theorems": [
    "Verif.Geo.C92_distinct_needed",
    "Verif.Geo.C92_gradient"
   ],
   "note": "Also: equal squared singular values always lead to a division by zero."
  },
  {
   "property": "C93",
   "status": "partial",
   "theorems": [
    "Verif.Geo.C93_best",
    "Verif.Geo.C93_first_order",
    "Verif.Geo.C93_gap",
    "Verif.Geo.C93_rank",
    "Verif.Geo.C93_total",
    "Verif.Geo.C93_valid_partial"
   ],
   "note": "Proved: positive descending singular values, best approximation among all matrices of rank at most k up to the shift, first-order agreement, existence of a result; orthonormal factors whenever point plus tangent vector has rank k. Missing: orthonormal factors when the rank drops, which the documented properties of QR and SVD do not give (C93_gap)."
  },
  {
   "property": "C94",
   "status": "partial",
   "theorems": [
    "Verif.Geo.C94_negation",
    "Verif.Geo.C94_partial"
   ],
   "note": "False at every point of positive rank because the singular values are shifted by machine epsilon. Proved: the squared distance is exactly k eps^2."
  },
  {
   "property": "C95",
   "status": "partial",
   "theorems": [
    "Verif.Geo.C95_embedding",
    "Verif.Geo.C95_metric",
    "Verif.Geo.C95_so_gradient",
    "Verif.Geo.C95_so_projection",
    "Verif.Geo.C95_tangent_space",
    "Verif.Geo.C95_unitary_negation",
    "Verif.Geo.C95_unitary_not_lie",
    "Verif.Geo.C95_unitary_partial"
   ],
   "note": "Special orthogonal group: proved. Unitary group: false at every point, because projection takes the skew-symmetric instead of the skew-Hermitian part; it is right exactly for ambient vectors with real X^H W (C95_unitary_partial). So the converted gradient on U(1) is always zero."
  },
  {
   "property": "C96",
   "status": "proved",
   "theorems": [
    "Verif.Geo.C96_exp",
    "Verif.Geo.C96_exp_geodesic",
    "Verif.Geo.C96_exp_so",
    "Verif.Geo.C96_retraction",
    "Verif.Geo.C96_retraction_so",
    "Verif.Geo.C96_total",
    "Verif.Geo.C96_velocity",
    "Verif.Geo.C96_zero"
   ],
   "note": "Whatever factorisations LAPACK returns, with existence of a factorisation; both retractions and exp also have the embedded tangent vector as initial velocity, and exp is a geodesic."
  },
  {
   "property": "C97",
   "status": "partial",
   "theorems": [
    "Verif.Geo.C97_dist",
    "Verif.Geo.C97_dist_invariant",
    "Verif.Geo.C97_dist_symm",
    "Verif.Geo.C97_log",
    "Verif.Geo.C97_log_exp",
    "Verif.Geo.C97_pair_mean",
    "Verif.Geo.C97_radius",
    "Verif.Geo.C97_shortest",
    "Verif.Geo.C97_shortest_unique",
    "Verif.Geo.C97_so_negation",
    "Verif.Geo.C97_so_partial",
    "Verif.Geo.C97_so_stack",
    "Verif.Geo.C97_so_stack_dist",
    "Verif.Geo.C97_so_stack_dist_le",
    "Verif.Geo.C97_so_stack_negation",
    "Verif.Geo.C97_total"
   ],
   "note": "Unitary group: proved for all pairs of points. Special orthogonal group: the logarithm is complex exactly when the quotient has an eigenvalue -1 (e.g. the half turn of the plane); otherwise proved. In a stack, log is also wrong if the first quotient lacks that eigenvalue and another one has it, because numpy then drops the imaginary part of the other one's logarithm (C97_so_stack_negation); otherwise the stack is treated like its members (C97_so_stack, C97_so_stack_dist), and dist is never longer (C97_so_stack_dist_le). C97_shortest and C97_shortest_unique are about shortest tangent vectors."
  },
  {
   "property": "C98",
   "status": "proved",
   "theorems": [
    "Verif.Geo.C98_derivative",
    "Verif.Geo.C98_derivative_so",
    "Verif.Geo.C98_second_derivative",
    "Verif.Geo.C98_symmetric"
   ],
   "note": "Also: derivative of the gradient field along curves, and second derivative of the cost along geodesics."
  },
  {
   "property": "C99",
   "status": "proved",
   "theorems": [
    "Verif.Geo.C99_special_orthogonal",
    "Verif.Geo.C99_unitary"
   ],
   "note": "For every draw, every factorisation, every n and k."
  },
  {
   "property": "C100",
   "status": "partial",
   "theorems": [
    "Verif.Geo.C100_complex_circle",
    "Verif.Geo.C100_complex_euclidean",
    "Verif.Geo.C100_complex_grassmann",
    "Verif.Geo.C100_elliptope",
    "Verif.Geo.C100_euclidean",
    "Verif.Geo.C100_fixed_rank",
    "Verif.Geo.C100_grassmann",
    "Verif.Geo.C100_hpd_negation",
    "Verif.Geo.C100_oblique",
    "Verif.Geo.C100_poincare",
    "Verif.Geo.C100_positive",
    "Verif.Geo.C100_product",
    "Verif.Geo.C100_psd",
    "Verif.Geo.C100_psd_complex",
    "Verif.Geo.C100_shpd_negation",
    "Verif.Geo.C100_skew",
    "Verif.Geo.C100_spd",
    "Verif.Geo.C100_special_orthogonal",
    "Verif.Geo.C100_sphere",
    "Verif.Geo.C100_sphere_subspace",
    "Verif.Geo.C100_stiefel",
    "Verif.Geo.C100_symmetric",
    "Verif.Geo.C100_unitary"
   ],
   "note": "Every manifold class; products as the sum over the factors. False for HermitianPositiveDefinite and SpecialHermitianPositiveDefinite at all sizes: both report k n more than the dimension of the tangent spaces. For the sphere-subspace manifolds matrix_rank is the exact rank."
  },
  {
   "property": "C101",
   "status": "partial",
   "theorems": [
    "Verif.Core.C101_product",
    "Verif.Geo.C101_complex_circle",
    "Verif.Geo.C101_complex_circle_point",
    "Verif.Geo.C101_elliptope_partial",
    "Verif.Geo.C101_euclidean",
    "Verif.Geo.C101_fixedRank",
    "Verif.Geo.C101_grassmann",
    "Verif.Geo.C101_hyperbolic",
    "Verif.Geo.C101_oblique",
    "Verif.Geo.C101_posdef",
    "Verif.Geo.C101_positive",
    "Verif.Geo.C101_psd",
    "Verif.Geo.C101_shpd",
    "Verif.Geo.C101_special_orthogonal",
    "Verif.Geo.C101_special_orthogonal_draw",
    "Verif.Geo.C101_special_orthogonal_one",
    "Verif.Geo.C101_sphere",
    "Verif.Geo.C101_sphere_point",
    "Verif.Geo.C101_sphere_subspace",
    "Verif.Geo.C101_stiefel",
    "Verif.Geo.C101_symmetric",
    "Verif.Geo.C101_unitary"
   ],
   "note": "Sphere, sphere-subspace, oblique, complex circle, Euclidean, symmetric, skew-symmetric, Stiefel, Grassmann, positive, positive definite, special positive definite, fixed-rank positive semidefinite, fixed-rank, Poincare ball, the groups and products. False on the elliptope (see C77), where only norm one and orthogonal rows are proved, and on SO(1), where every draw is zero."
  },
  {
   "property": "C102",
   "status": "partial",
   "theorems": [
    "Verif.Opt.C102_exact_solution_lost",
    "Verif.Opt.C102_first_step_rejected",
    "Verif.Opt.C102_mininner_zero_partial"
   ],
   "note": "False: with mininner >= 1 the solution found in the first inner iteration is lost (0/0), shown for every Hessian proportional to the identity and for a concrete run."
  },
  {
   "property": "C103",
   "status": "partial",
   "theorems": [
    "Verif.Opt.C103_kept_partial",
    "Verif.Opt.C103_use_rand_leaves_region",
    "Verif.Opt.C103_use_rand_partial",
    "Verif.Opt.C103_zero_start_partial"
   ],
   "note": "False: concrete strictly convex model whose step is longer than the radius. Proved for every start in the region: the step exceeds the radius by at most the length of the start and by at most the factor sqrt 2, and not at all if the solver stops in its first iteration; the same bound and a predicted decrease hold for the step kept after the comparison with the Cauchy point."
  },
  {
   "property": "C104",
   "status": "proved",
   "theorems": [
    "Verif.Opt.C104_cauchy_decrease",
    "Verif.Opt.C104_cauchy_point"
   ],
   "note": "Exact arithmetic."
  },
  {
   "property": "C105",
   "status": "partial",
   "theorems": [
    "Verif.Core.C105_extra_components_ignored",
    "Verif.Core.C105_missing_components_ignored",
    "Verif.Core.C105_partial"
   ],
   "note": "False: surplus components are ignored and missing ones shorten the result (zip truncation), for every product; negations proved. Only arguments without components (numbers, arrays of dimension zero) are rejected (C105_partial)."
  },
  {
   "property": "C106",
   "status": "partial",
   "theorems": [
    "Verif.Opt.C106_default_verbosity_raises",
    "Verif.Opt.C106_partial",
    "Verif.Opt.C106_violated"
   ],
   "note": "False for iteration limits below one: default verbosity raises OverflowError or ValueError (negation proved). Proved for limits of at least one."
  },
  {
   "property": "C107",
   "status": "partial",
   "theorems": [
    "Verif.Geo.C107_dist",
    "Verif.Geo.C107_log_fails",
    "Verif.Geo.C107_log_partial",
    "Verif.Geo.C107_pair_mean"
   ],
   "note": "False for different entries at an angle of at most 1e-6 (log too short) and for antipodal entries (NaN); negations proved. Proved for all other entries; dist is a metric, pair_mean as claimed."
  },
  {
   "property": "C108",
   "status": "proved",
   "theorems": [
    "Verif.Geo.C108_random_point"
   ],
   "note": "Whatever QR factorisations are returned."
  },
  {
   "property": "C109",
   "status": "proved",
   "theorems": [
    "Verif.Geo.C109_complex_circle",
    "Verif.Geo.C109_elliptope",
    "Verif.Geo.C109_euclidean",
    "Verif.Geo.C109_grassmann",
    "Verif.Geo.C109_negation_psd",
    "Verif.Geo.C109_oblique",
    "Verif.Geo.C109_poincare",
    "Verif.Geo.C109_positive",
    "Verif.Geo.C109_positive_definite",
    "Verif.Geo.C109_product",
    "Verif.Geo.C109_special_hpd",
    "Verif.Geo.C109_special_orthogonal",
    "Verif.Geo.C109_sphere",
    "Verif.Geo.C109_sphere_subspace",
    "Verif.Geo.C109_stiefel",
    "Verif.Geo.C109_symmetric",
    "Verif.Opt.C109_adaptive",
    "Verif.Opt.C109_backTracking",
    "Verif.Opt.C109_centroid",
    "Verif.Opt.C109_conjugateGradient",
    "Verif.Opt.C109_nelderMead",
    "Verif.Opt.C109_nelderMead_centroid",
    "Verif.Opt.C109_particleSwarm",
    "Verif.Opt.C109_steepestDescent",
    "Verif.Opt.C109_tcg",
    "Verif.Opt.C109_trustRegions",
    "Verif.Opt.C109_trustRegions_random"
   ],
   "note": "For all five optimizers and the centroid computation of Nelder-Mead, from closure of the manifold's methods; closure is proved for the Euclidean, symmetric, sphere, sphere-subspace, oblique, complex circle, positive, positive definite, special positive definite, Stiefel, Grassmann and elliptope manifolds, the Poincare ball, the special orthogonal group and products. Not covered: UnitaryGroup, whose converted gradient is wrong (C95_unitary_negation), and PSDFixedRank, PSDFixedRankComplex and FixedRankEmbedded, which are not closed (a retraction may drop the rank, C109_negation_psd). Exact scalars in the manifold instances."
  },
  {
   "property": "C110",
   "status": "partial",
   "theorems": [
    "Verif.Geo.C110_complex_circle",
    "Verif.Geo.C110_elliptope",
    "Verif.Geo.C110_euclidean",
    "Verif.Geo.C110_fixed_rank_partial",
    "Verif.Geo.C110_grassmann",
    "Verif.Geo.C110_oblique",
    "Verif.Geo.C110_poincare",
    "Verif.Geo.C110_positive",
    "Verif.Geo.C110_positive_definite",
    "Verif.Geo.C110_product",
    "Verif.Geo.C110_psd",
    "Verif.Geo.C110_special_hpd",
    "Verif.Geo.C110_special_orthogonal",
    "Verif.Geo.C110_sphere",
    "Verif.Geo.C110_sphere_subspace",
    "Verif.Geo.C110_stiefel",
    "Verif.Geo.C110_symmetric",
    "Verif.Geo.C110_unitary_negation"
   ],
   "note": "Every manifold class, with product manifolds. On the fixed-rank manifold the retraction ends at a point whose singular values are shifted by eps, so the statement is about the curve without the shift and distinct singular values. False for the unitary group: at every point some cost changes to first order along a tangent vector although its converted gradient is zero (negation proved)."
  },
  {
   "property": "C111",
   "status": "proved",
   "theorems": [
    "Verif.Geo.C111_complex_circle",
    "Verif.Geo.C111_elliptope",
    "Verif.Geo.C111_euclidean",
    "Verif.Geo.C111_grassmann",
    "Verif.Geo.C111_oblique",
    "Verif.Geo.C111_poincare",
    "Verif.Geo.C111_positive",
    "Verif.Geo.C111_positive_definite",
    "Verif.Geo.C111_product",
    "Verif.Geo.C111_psd",
    "Verif.Geo.C111_special_hpd",
    "Verif.Geo.C111_special_orthogonal",
    "Verif.Geo.C111_sphere",
    "Verif.Geo.C111_sphere_subspace",
    "Verif.Geo.C111_stiefel",
    "Verif.Opt.C111_adaptive",
    "Verif.Opt.C111_backTracking",
    "Verif.Opt.C111_backTracks",
    "Verif.Opt.C111_descent",
    "Verif.Opt.C111_stall",
    "Verif.Opt.C111_steepestDescent"
   ],
   "note": "For both line searchers, with the budget depending on the cost and the point; C111_descent covers every problem whose gradient represents the derivative, and the Geo theorems show this for every manifold class for which C110 is proved unconditionally. C111_stall proves the other side: after a search that found no step the searchers start the next search with step size zero, so the run makes no progress for its remaining iterations."
  },
  {
   "property": "C112",
   "status": "proved",
   "theorems": [
    "Verif.Opt.C112_decrease",
    "Verif.Opt.C112_rate"
   ],
   "note": "For the adaptive line searcher with enough evaluations allowed for the number of iterations; the sum ranges over the gradient norms written to the log."
  },
  {
   "property": "C113",
   "status": "proved",
   "theorems": [
    "Verif.Geo.C113_complex_circle",
    "Verif.Geo.C113_elliptope",
    "Verif.Geo.C113_euclidean",
    "Verif.Geo.C113_grassmann",
    "Verif.Geo.C113_oblique",
    "Verif.Geo.C113_poincare",
    "Verif.Geo.C113_positive",
    "Verif.Geo.C113_positive_definite",
    "Verif.Geo.C113_special_orthogonal",
    "Verif.Geo.C113_sphere",
    "Verif.Geo.C113_sphere_subspace",
    "Verif.Geo.C113_stiefel",
    "Verif.Opt.C113_accepts",
    "Verif.Opt.C113_descends",
    "Verif.Opt.C113_progress",
    "Verif.Opt.C113_rejections_bounded"
   ],
   "note": "Without use_rand. Acceptance and the bound on consecutive rejections hold for every rho_regularization >= 0, so for the default; the progress of whole runs is for rho_regularization = 0 and rho_prime < 1/4 (with regularisation the cost may increase, see C25). Instances for every manifold class for which C111 is shown, except the special Hermitian positive definite manifold, which has no Hessian conversion."
  },
  {
   "property": "C114",
   "status": "proved",
   "theorems": [
    "Verif.Opt.C114_iterations",
    "Verif.Opt.C114_terminates"
   ],
   "note": "Without use_rand; over exact reals. The constants are explicit in the statement; with the default regularisation the guaranteed decrease per accepted step is reduced by the regularisation term and has to stay positive. An iteration in which the inner loop continues after an exact solution raises in exact arithmetic (C102), so the statement is about the iterations that return."
  },
  {
   "property": "C115",
   "status": "proved",
   "theorems": [
    "Verif.Geo.C115_complex_circle",
    "Verif.Geo.C115_euclidean",
    "Verif.Geo.C115_factor_complex_circle",
    "Verif.Geo.C115_factor_euclidean",
    "Verif.Geo.C115_factor_grassmann",
    "Verif.Geo.C115_factor_oblique",
    "Verif.Geo.C115_factor_poincare",
    "Verif.Geo.C115_factor_positive",
    "Verif.Geo.C115_factor_positive_definite",
    "Verif.Geo.C115_factor_psd",
    "Verif.Geo.C115_factor_sphere",
    "Verif.Geo.C115_factor_sphere_subspace",
    "Verif.Geo.C115_factor_stiefel",
    "Verif.Geo.C115_grassmann",
    "Verif.Geo.C115_oblique",
    "Verif.Geo.C115_poincare",
    "Verif.Geo.C115_positive",
    "Verif.Geo.C115_positive_definite",
    "Verif.Geo.C115_product",
    "Verif.Geo.C115_psd",
    "Verif.Geo.C115_special_orthogonal",
    "Verif.Geo.C115_sphere",
    "Verif.Geo.C115_sphere_subspace",
    "Verif.Geo.C115_stiefel",
    "Verif.Geo.C115_symmetric"
   ],
   "note": "Without use_rand and with the default preconditioner (C28 covers other preconditioners and C104 the preconditioned Cauchy point on a tangent space given abstractly). On the Grassmann manifold the cost must not change along the column space, as for C70. Not covered, though they convert Hessians: UnitaryGroup, whose converted gradient is wrong (C95_unitary_negation), and Elliptope, whose projection does not return tangent vectors (C77_negation), and products with them. On the PSD quotients the points are factors of full rank and the projection is any solution of the Lyapunov equation. SpecialHermitianPositiveDefinite and FixedRankEmbedded have no Hessian conversion. C115_product covers products of any number of factors; C115_factor_* show which manifolds can be factors. Groups cannot, because a product hands the Euclidean Hessian tangent vectors that are not embedded (C39_product_violated, C165_negation_hessian)."
  },
  {
   "property": "C116",
   "status": "proved",
   "theorems": [
    "Verif.Core.C116_check_gradient",
    "Verif.Core.C116_check_hessian",
    "Verif.Core.C116_errors",
    "Verif.Core.C116_exact",
    "Verif.Core.C116_gradient",
    "Verif.Core.C116_hessian",
    "Verif.Core.C116_returns",
    "Verif.Core.C116_scale",
    "Verif.Core.C116_slopes"
   ],
   "note": "In exact arithmetic; np.polyfit is a parameter (C49 is about how its fits are used). C116_scale shows a limitation: the threshold is absolute, so every problem, its gradient right or wrong, has a positive multiple whose linear model is called exact."
  },
  {
   "property": "C117",
   "status": "partial",
   "theorems": [
    "Verif.Core.C117_defaults",
    "Verif.Core.C117_defaults_plot",
    "Verif.Core.C117_matplotlib",
    "Verif.Core.C117_not_implemented",
    "Verif.Core.C117_retraction_dist",
    "Verif.Core.C117_retraction_errors",
    "Verif.Core.C117_retraction_ignored",
    "Verif.Core.C117_retraction_partial",
    "Verif.Core.C117_value_error_partial"
   ],
   "note": "False for check_retraction: a tangent vector given without a point is silently replaced by a random one, and where dist is not implemented it raises NotImplementedError, because the guard for dist calls retraction a second time (both proved). Everything else holds."
  },
  {
   "property": "C118",
   "status": "partial",
   "theorems": [
    "Verif.Core.C118_gradient",
    "Verif.Core.C118_hessian",
    "Verif.Core.C118_hessian_detects",
    "Verif.Geo.C118_complex_circle_partial",
    "Verif.Geo.C118_grassmann_partial",
    "Verif.Geo.C118_oblique_partial",
    "Verif.Geo.C118_open_partial",
    "Verif.Geo.C118_positive_definite_negation",
    "Verif.Geo.C118_special_hpd_negation",
    "Verif.Geo.C118_special_orthogonal_partial",
    "Verif.Geo.C118_sphere_partial",
    "Verif.Geo.C118_sphere_subspace_negation",
    "Verif.Geo.C118_stiefel_partial",
    "Verif.Geo.C118_symmetric_negation"
   ],
   "note": "The residual detects tangent vectors on the sphere, oblique, complex circle, Stiefel, Grassmann and special orthogonal manifolds and where all arrays are tangent. False for symmetric and skew-symmetric matrices (residual always zero), spheres cut by a subspace (detects tangency to the sphere only), special Hermitian positive definite matrices (Hermitian only), and positive definite matrices (the square root of a negative number, nan, for every vector that is not Hermitian); negations proved."
  },
  {
   "property": "C119",
   "status": "partial",
   "theorems": [
    "Verif.Geo.C119_complex_circle",
    "Verif.Geo.C119_euclidean",
    "Verif.Geo.C119_grassmann",
    "Verif.Geo.C119_oblique",
    "Verif.Geo.C119_poincare",
    "Verif.Geo.C119_positive",
    "Verif.Geo.C119_positive_definite",
    "Verif.Geo.C119_product",
    "Verif.Geo.C119_psd",
    "Verif.Geo.C119_special_hpd",
    "Verif.Geo.C119_special_orthogonal",
    "Verif.Geo.C119_special_orthogonal_negation",
    "Verif.Geo.C119_special_orthogonal_single",
    "Verif.Geo.C119_special_orthogonal_stack_partial",
    "Verif.Geo.C119_sphere",
    "Verif.Geo.C119_sphere_subspace",
    "Verif.Geo.C119_unitary"
   ],
   "note": "Euclidean spaces and matrix subspaces, spheres, oblique, complex circle, positive arrays, Poincare balls, positive definite and special Hermitian positive definite matrices, PSD quotients, Grassmann manifolds, unitary and special orthogonal groups, products. Stiefel, fixed-rank, and elliptope have no dist. The special orthogonal group with k = 1 (C119_special_orthogonal_single; C119_special_orthogonal is about the logarithms before numpy stores them). False on stacks of rotations, where numpy drops the imaginary parts of logarithms: dist vanishes between (1, 1) and (1, -1) (C119_special_orthogonal_negation). There it has one value, is not negative, zero for equal points, and symmetric (C119_special_orthogonal_stack_partial)."
  },
  {
   "property": "C120",
   "status": "partial",
   "theorems": [
    "Verif.Geo.C120_complex_circle",
    "Verif.Geo.C120_grassmann_negation",
    "Verif.Geo.C120_grassmann_partial",
    "Verif.Geo.C120_oblique",
    "Verif.Geo.C120_positive",
    "Verif.Geo.C120_product",
    "Verif.Geo.C120_radii",
    "Verif.Geo.C120_special_orthogonal",
    "Verif.Geo.C120_special_orthogonal_stack",
    "Verif.Geo.C120_sphere",
    "Verif.Geo.C120_unitary",
    "Verif.Geo.C120_zero_dimension"
   ],
   "note": "Holds for spheres, oblique, complex circle, unitary and special orthogonal manifolds, where typical_dist is also attained (special orthogonal: even size), and for products. False on Grassmann manifolds: orthogonal subspaces are pi/2 times typical_dist apart, which is the largest possible distance (both proved). C120_special_orthogonal_stack is about distances of stacks of rotations as numpy stores them (see C119). Unbounded manifolds and those without dist: positivity only."
  },
  {
   "property": "C121",
   "status": "partial",
   "theorems": [
    "Verif.Geo.C121_complex_circle_partial",
    "Verif.Geo.C121_euclidean",
    "Verif.Geo.C121_grassmann",
    "Verif.Geo.C121_oblique_partial",
    "Verif.Geo.C121_poincare",
    "Verif.Geo.C121_positive",
    "Verif.Geo.C121_positive_definite",
    "Verif.Geo.C121_product",
    "Verif.Geo.C121_psd",
    "Verif.Geo.C121_special_hpd",
    "Verif.Geo.C121_special_orthogonal",
    "Verif.Geo.C121_sphere_negation",
    "Verif.Geo.C121_sphere_partial",
    "Verif.Geo.C121_sphere_subspace_partial",
    "Verif.Geo.C121_unitary"
   ],
   "note": "Exact on Euclidean spaces, positive arrays, Poincare balls (distinct points), positive definite and special Hermitian positive definite matrices, PSD quotients, Grassmann manifolds, unitary and special orthogonal groups, products. Not exact on spheres and oblique manifolds, whose log adds eps to numerator and denominator (negation proved, error bounded), nor within 1e-6 on the complex circle, where log is truncated (error bounded)."
  },
  {
   "property": "C122",
   "status": "partial",
   "theorems": [
    "Verif.Geo.C122_complex_circle_partial",
    "Verif.Geo.C122_euclidean",
    "Verif.Geo.C122_euclidean_mean",
    "Verif.Geo.C122_euclidean_progress",
    "Verif.Geo.C122_firstOrder",
    "Verif.Geo.C122_gradient",
    "Verif.Geo.C122_grassmann",
    "Verif.Geo.C122_improves",
    "Verif.Geo.C122_oblique_partial",
    "Verif.Geo.C122_poincare",
    "Verif.Geo.C122_positive",
    "Verif.Geo.C122_positive_definite",
    "Verif.Geo.C122_positive_mean",
    "Verif.Geo.C122_psd",
    "Verif.Geo.C122_special_hpd",
    "Verif.Geo.C122_special_orthogonal",
    "Verif.Geo.C122_sphere_partial"
   ],
   "note": "Exact gradients on the same manifolds as C121 except the unitary group, whose inner product is a complex number in the code; spheres, oblique and complex circle up to the bounded errors of C121. On products compute_centroid raises (C151)."
  },
  {
   "property": "C123",
   "status": "proved",
   "theorems": [
    "Verif.Geo.C123_agree",
    "Verif.Geo.C123_autograd",
    "Verif.Geo.C123_jax",
    "Verif.Geo.C123_pytorch",
    "Verif.Geo.C123_symmetric",
    "Verif.Geo.C123_tensorflow"
   ],
   "note": "Relative to contracts on the differentiation libraries, stated in Geo/Props/Backends.lean: the conventions for conjugation of autograd.grad, jax.grad, torch backward/grad, tf.GradientTape, and that jax.jvp and tf.autodiff.ForwardAccumulator return directional derivatives; each contract is shown to be satisfiable. For PyTorch the statements are about calls that return."
  },
  {
   "property": "C124",
   "status": "partial",
   "theorems": [
    "Verif.Geo.C124_gradient",
    "Verif.Geo.C124_hessian_partial",
    "Verif.Geo.C124_pytorch_negation"
   ],
   "note": "False for the Hessian of PyTorch: torch.autograd.grad(allow_unused=True) returns None for an ignored argument and the operator takes its conj, an AttributeError (negation proved). Gradients, and Hessians of the other backends, hold."
  },
  {
   "property": "C125",
   "status": "proved",
   "theorems": [
    "Verif.Geo.C125_euclidean",
    "Verif.Geo.C125_gradient",
    "Verif.Geo.C125_grassmann",
    "Verif.Geo.C125_matrix_subspaces",
    "Verif.Geo.C125_oblique",
    "Verif.Geo.C125_positive_differs",
    "Verif.Geo.C125_sphere",
    "Verif.Geo.C125_sphere_subspace",
    "Verif.Geo.C125_stiefel"
   ],
   "note": "autograd.jacobian is taken to be the array of partial derivatives. The documented restriction to embedded manifolds is shown to be needed (C125_positive_differs)."
  },
  {
   "property": "C126",
   "status": "partial",
   "theorems": [
    "Verif.Geo.C126_complex_circle",
    "Verif.Geo.C126_elliptope",
    "Verif.Geo.C126_euclidean",
    "Verif.Geo.C126_factor_complex_circle",
    "Verif.Geo.C126_factor_elliptope",
    "Verif.Geo.C126_factor_euclidean",
    "Verif.Geo.C126_factor_grassmann",
    "Verif.Geo.C126_factor_oblique",
    "Verif.Geo.C126_factor_poincare",
    "Verif.Geo.C126_factor_positive",
    "Verif.Geo.C126_factor_positive_definite",
    "Verif.Geo.C126_factor_psd",
    "Verif.Geo.C126_factor_sphere",
    "Verif.Geo.C126_factor_sphere_subspace",
    "Verif.Geo.C126_factor_stiefel",
    "Verif.Geo.C126_factor_stiefel_polar",
    "Verif.Geo.C126_factor_symmetric",
    "Verif.Geo.C126_grassmann",
    "Verif.Geo.C126_group_partial",
    "Verif.Geo.C126_oblique",
    "Verif.Geo.C126_poincare",
    "Verif.Geo.C126_positive",
    "Verif.Geo.C126_positive_definite",
    "Verif.Geo.C126_product",
    "Verif.Geo.C126_product_curves",
    "Verif.Geo.C126_psd",
    "Verif.Geo.C126_qr_negation",
    "Verif.Geo.C126_special_orthogonal",
    "Verif.Geo.C126_special_orthogonal_qr_partial",
    "Verif.Geo.C126_sphere",
    "Verif.Geo.C126_sphere_subspace",
    "Verif.Geo.C126_stiefel",
    "Verif.Geo.C126_stiefel_polar",
    "Verif.Geo.C126_stiefel_qr_partial",
    "Verif.Geo.C126_symmetric"
   ],
   "note": "exp of all manifolds with a Hessian conversion except the complex circle, whose exp drops imaginary parts, and the retractions of spheres, oblique, elliptope, complex circle, positive arrays and matrices, Grassmann (both) and the polar retractions. False for the QR retraction, the default of Stiefel and of the groups, away from critical points (C126_qr_negation; at critical points C126_stiefel_qr_partial and C126_special_orthogonal_qr_partial), and for the first order term on the unitary group (C110). C126_product combines factors, for which the C126_factor theorems are stated; a product does not embed the tangent vectors of the groups, which are therefore not among the factors."
  },
  {
   "property": "C127",
   "status": "proved",
   "theorems": [
    "Verif.Geo.C127_complex_circle",
    "Verif.Geo.C127_euclidean",
    "Verif.Geo.C127_flat",
    "Verif.Geo.C127_gradient_bound",
    "Verif.Geo.C127_grassmann",
    "Verif.Geo.C127_oblique",
    "Verif.Geo.C127_product",
    "Verif.Geo.C127_smooth",
    "Verif.Geo.C127_special_orthogonal",
    "Verif.Geo.C127_sphere",
    "Verif.Geo.C127_sphere_constants",
    "Verif.Geo.C127_sphere_subspace",
    "Verif.Geo.C127_stiefel",
    "Verif.Geo.C127_symmetric"
   ],
   "note": "Exact arithmetic. The factorisations used by the retractions are taken as specified by IsQR, IsSVD. Complete for the manifolds named."
  },
  {
   "property": "C128",
   "status": "partial",
   "theorems": [
    "Verif.Geo.Examples.C128_column",
    "Verif.Geo.Examples.C128_correlation_negation",
    "Verif.Geo.Examples.C128_correlation_partial",
    "Verif.Geo.Examples.C128_eigenvector",
    "Verif.Geo.Examples.C128_low_rank",
    "Verif.Geo.Examples.C128_pca_gradient_partial",
    "Verif.Geo.Examples.C128_pca_hessian_negation",
    "Verif.Geo.Examples.C128_psd",
    "Verif.Geo.Examples.C128_regression",
    "Verif.Geo.Examples.C128_rotations",
    "Verif.Geo.Examples.C128_subspace"
   ],
   "note": "Right for all examples except two. The Hessian of pca.py has an extra term and is not linear in the direction (C128_pca_hessian_negation; its gradient is right, C128_pca_gradient_partial). The gradient of rank_k_correlation_matrix_approximation.py is half the true one and does not fit the Hessian given beside it (C128_correlation_negation; twice it is right, C128_correlation_partial)."
  },
  {
   "property": "C129",
   "status": "partial",
   "theorems": [
    "Verif.Geo.Examples.C129_agree",
    "Verif.Geo.Examples.C129_packing_partial",
    "Verif.Geo.Examples.C129_packing_tensorflow_negation"
   ],
   "note": "Holds for all examples and backends except TensorFlow in packing_on_the_sphere.py, which computes the exponentials but sums the inner products themselves, including those of points with themselves (C129_packing_tensorflow_negation)."
  },
  {
   "property": "C130",
   "status": "proved",
   "theorems": [
    "Verif.Geo.Examples.C130_column",
    "Verif.Geo.Examples.C130_eigenvector",
    "Verif.Geo.Examples.C130_low_rank",
    "Verif.Geo.Examples.C130_pca",
    "Verif.Geo.Examples.C130_regression",
    "Verif.Geo.Examples.C130_rotations",
    "Verif.Geo.Examples.C130_subspace"
   ],
   "note": "np.linalg.eig, argsort, argmax, pinv and svd are specified by IsEig, IsArgsort, IsArgmax, IsPinv and IsSVD. For repeated eigenvalues eig may return eigenvectors that are not orthogonal: then the bound on the cost still holds for the subspace examples, feasibility needs different eigenvalues."
  },
  {
   "property": "C131",
   "status": "proved",
   "theorems": [
    "Verif.Opt.C131_adaptive",
    "Verif.Opt.C131_backTracking",
    "Verif.Opt.C131_start"
   ],
   "note": "In exact arithmetic, for runs that return. The budget of the line searcher is a hypothesis: contraction_factor ** max_iterations times the largest step it may try must reach the length at which sufficient decrease is certain."
  },
  {
   "property": "C132",
   "status": "proved",
   "theorems": [
    "Verif.Geo.Examples.C132_eigenvector",
    "Verif.Geo.Examples.C132_regression",
    "Verif.Geo.Examples.C132_subspace"
   ],
   "note": "In exact arithmetic, for runs that return. L bounds the norm of the matrix (for the regression, that of the Gram matrix). The number of iterations of trust regions is trIterations, from C114."
  },
  {
   "property": "C133",
   "status": "proved",
   "theorems": [
    "Verif.Opt.C133_adaptive",
    "Verif.Opt.C133_backTracking",
    "Verif.Opt.C133_centroid",
    "Verif.Opt.C133_conjugateGradient",
    "Verif.Opt.C133_nelderMead",
    "Verif.Opt.C133_particleSwarm",
    "Verif.Opt.C133_steepestDescent",
    "Verif.Opt.C133_tcg",
    "Verif.Opt.C133_trustRegions"
   ],
   "note": "For every number type the optimizers are modelled over. With the Liu-Storey rule the correspondence must also respect inner products of vectors at different points, which that rule takes; with use_rand the initial steps must correspond; for Nelder-Mead and particle swarm the sorts and the random draws must. The hypotheses are met by all the symmetries of C134."
  },
  {
   "property": "C134",
   "status": "proved",
   "theorems": [
    "Verif.Geo.C134_complex_circle",
    "Verif.Geo.C134_eigenvector_runs",
    "Verif.Geo.C134_elliptope",
    "Verif.Geo.C134_elliptope_runs",
    "Verif.Geo.C134_euclidean",
    "Verif.Geo.C134_fixed_rank",
    "Verif.Geo.C134_fixed_rank_problems",
    "Verif.Geo.C134_fixed_rank_representations",
    "Verif.Geo.C134_fixed_rank_unique",
    "Verif.Geo.C134_grassmann",
    "Verif.Geo.C134_grassmann_runs",
    "Verif.Geo.C134_low_rank",
    "Verif.Geo.C134_low_rank_psd_runs",
    "Verif.Geo.C134_oblique",
    "Verif.Geo.C134_packing_runs",
    "Verif.Geo.C134_poincare",
    "Verif.Geo.C134_positive",
    "Verif.Geo.C134_positive_definite",
    "Verif.Geo.C134_positive_definite_log",
    "Verif.Geo.C134_problems",
    "Verif.Geo.C134_product",
    "Verif.Geo.C134_psd",
    "Verif.Geo.C134_psd_runs",
    "Verif.Geo.C134_same_runs",
    "Verif.Geo.C134_special_hpd",
    "Verif.Geo.C134_special_hpd_log",
    "Verif.Geo.C134_special_hpd_problems",
    "Verif.Geo.C134_special_orthogonal",
    "Verif.Geo.C134_sphere",
    "Verif.Geo.C134_sphere_subspace",
    "Verif.Geo.C134_stiefel",
    "Verif.Geo.C134_subspace_runs",
    "Verif.Geo.C134_symmetric"
   ],
   "note": "In exact arithmetic, with factorisations as specified by IsSVD, IsQR and IsLyapunov. C134_problems turns each symmetry into a correspondence of problems as in C133. The QR retraction of the Stiefel manifold only has the symmetries acting from the left. For SpecialHermitianPositiveDefinite the congruences have determinants of modulus one, and the Hessian conversion, which the class lacks, is a parameter. On FixedRankEmbedded, whose retraction returns singular vectors that are only determined up to signs, C134_fixed_rank_problems constructs the corresponding results of LAPACK for the second problem (C134_fixed_rank_representations for two representations of the same matrix); a gradient with a division by zero is represented by the zero vector on both sides. C134_psd_runs and C134_elliptope_runs start from factors of full rank."
  },
  {
   "property": "C135",
   "status": "proved",
   "theorems": [
    "Verif.Opt.C135_centroid",
    "Verif.Opt.C135_conjugateGradient",
    "Verif.Opt.C135_nelderMead",
    "Verif.Opt.C135_particleSwarm",
    "Verif.Opt.C135_steepestDescent",
    "Verif.Opt.C135_trustRegions"
   ],
   "note": "For every number type the optimizers are modelled over, for runs that return. Evaluations are those listed by the ghost field evals. For Nelder-Mead without an initial simplex (the check of a given one is the wrong way round, C17). The evaluations inside compute_centroid are of the distance, not of the cost."
  },
  {
   "property": "C136",
   "status": "proved",
   "theorems": [
    "Verif.Geo.Examples.C136_collapse",
    "Verif.Geo.Examples.C136_extract",
    "Verif.Geo.Examples.C136_likelihood",
    "Verif.Geo.Examples.C136_local_minimisers",
    "Verif.Geo.Examples.C136_minimisers"
   ],
   "note": "In exact arithmetic; logsumexp is the logarithm of the sum of exponentials. Mathlib's IsMinOn and IsLocalMinOn state (local) minimality; gaussPdf, mixNll and IsMixture are the specification."
  },
  {
   "property": "C137",
   "status": "partial",
   "theorems": [
    "Verif.Geo.Examples.C137_negation",
    "Verif.Geo.Examples.C137_one_component_partial"
   ],
   "note": "Holds for one component (C137_one_component_partial). False for two components or more, whatever the samples and the probabilities: the negation gives for each of them a geodesic along which the cost is not convex."
  },
  {
   "property": "C138",
   "status": "partial",
   "theorems": [
    "Verif.Opt.C138_cases",
    "Verif.Opt.C138_negation",
    "Verif.Opt.C138_on_manifold",
    "Verif.Opt.C138_overwrites",
    "Verif.Opt.C138_safe_partial",
    "Verif.Opt.C138_same"
   ],
   "note": "Holds while no trial point makes the objective raise (C138_same, C138_safe_partial); count and membership in the manifold hold always. False after a LinAlgError: the caller's point is overwritten in place with a random replacement, which is returned whatever its cost (C138_negation)."
  },
  {
   "property": "C139",
   "status": "partial",
   "theorems": [
    "Verif.Opt.C139_brief",
    "Verif.Opt.C139_cauchy_line",
    "Verif.Opt.C139_negation",
    "Verif.Opt.C139_prints",
    "Verif.Opt.C139_rows_conjugateGradient",
    "Verif.Opt.C139_rows_nelderMead",
    "Verif.Opt.C139_rows_steepestDescent",
    "Verif.Opt.C139_rows_trustRegions",
    "Verif.Opt.C139_silent_partial",
    "Verif.Opt.C139_silent_trustRegions",
    "Verif.Opt.C139_silent_trustRegions_numpy"
   ],
   "note": "The printed lines are modelled as messages with their values, not their formatting. Holds for all optimizers but particle swarm, which prints a warning whatever the verbosity if the initial population has another size than configured (C139_negation). For trust regions the warning about the ratio could be printed only if a division by zero raised, which it never does for Python and NumPy scalars (C139_silent_trustRegions_numpy)."
  },
  {
   "property": "C140",
   "status": "partial",
   "theorems": [
    "Verif.Opt.C140_negation",
    "Verif.Opt.C140_nelderMead_partial",
    "Verif.Opt.C140_particleSwarm"
   ],
   "note": "Holds for particle swarm. False for Nelder-Mead: the row is printed before the simplex is sorted, so it shows the best cost of the iteration before (C140_negation, on x**2); C140_nelderMead_partial states what it shows."
  },
  {
   "property": "C141",
   "status": "proved",
   "theorems": [
    "Verif.Opt.C141_inside",
    "Verif.Opt.C141_negation",
    "Verif.Opt.C141_start",
    "Verif.Opt.C141_tangent"
   ],
   "note": "In exact arithmetic. For a negative radius, which the optimizer does not reject, the loop never ends, and for radius zero only for draws of norm zero (C141_negation); in floating point such a draw underflows to zero after finitely many rounds."
  },
  {
   "property": "C142",
   "status": "proved",
   "theorems": [
    "Verif.Opt.C142_warnings"
   ],
   "note": "The message of the warnings is modelled with the thresholds it quotes; the marks TR-, TR+ and blanks are modelled as an ordering."
  },
  {
   "property": "C143",
   "status": "partial",
   "theorems": [
    "Verif.Geo.C143_complexCircle_partial",
    "Verif.Geo.C143_exact_complexCircle",
    "Verif.Geo.C143_exact_grassmann",
    "Verif.Geo.C143_exact_oblique",
    "Verif.Geo.C143_exact_poincare",
    "Verif.Geo.C143_exact_positive",
    "Verif.Geo.C143_exact_sphere",
    "Verif.Geo.C143_grassmann",
    "Verif.Geo.C143_negation_complexCircle",
    "Verif.Geo.C143_negation_oblique",
    "Verif.Geo.C143_negation_poincare",
    "Verif.Geo.C143_oblique_partial",
    "Verif.Geo.C143_poincare_dist",
    "Verif.Geo.C143_positive",
    "Verif.Geo.C143_sphere"
   ],
   "note": "Holds for spheres (all arrays), Grassmann distances (all singular values), positive arrays, and distances in the Poincare ball. False for the oblique manifold (dist caps inner products at 1 but not at -1, log not at all), the complex circle (no caps: dist(z, z) can be NaN) and log in the Poincare ball; the negations are computed in binary64 with points normalised by the manifolds themselves, and C143_oblique_partial, C143_complexCircle_partial say exactly when there is no NaN. C143_exact_* relate the rounding model to the exact models. Overflow and underflow are not modelled."
  },
  {
   "property": "C144",
   "status": "partial",
   "theorems": [
    "Verif.Geo.C144_binary64",
    "Verif.Geo.C144_binary64_matrices",
    "Verif.Geo.C144_complexCircle",
    "Verif.Geo.C144_elliptope",
    "Verif.Geo.C144_exact_complexCircle",
    "Verif.Geo.C144_exact_elliptope",
    "Verif.Geo.C144_exact_multi",
    "Verif.Geo.C144_exact_oblique",
    "Verif.Geo.C144_exact_poincare",
    "Verif.Geo.C144_exact_sphere",
    "Verif.Geo.C144_negation_poincare",
    "Verif.Geo.C144_oblique",
    "Verif.Geo.C144_positive",
    "Verif.Geo.C144_runs_complexCircle",
    "Verif.Geo.C144_runs_elliptope",
    "Verif.Geo.C144_runs_nelderMead",
    "Verif.Geo.C144_runs_oblique",
    "Verif.Geo.C144_runs_positive",
    "Verif.Geo.C144_runs_sphere",
    "Verif.Geo.C144_skew",
    "Verif.Geo.C144_sphere",
    "Verif.Geo.C144_symmetric"
   ],
   "note": "Holds for spheres, oblique manifolds, elliptopes, complex circles, positive arrays and (skew-)symmetric parts, for every arithmetic with relative errors and for binary64 with sums from left to right; C144_runs_* are about whole runs and C144_exact_* relate the rounding model to the exact models. False for the Poincare ball: in binary64 retraction(0, 20) is 1, on the boundary, and every further retraction is NaN (C144_negation_poincare, for every tanh that is accurate before rounding). Overflow and underflow are not modelled; retractions that use QR or polar factors are not modelled with rounding."
  },
  {
   "property": "C145",
   "status": "proved",
   "theorems": [
    "Verif.Opt.C145_at_most_dimension",
    "Verif.Opt.C145_interior_any_radius",
    "Verif.Opt.C145_krylov_minimum",
    "Verif.Opt.C145_larger_region",
    "Verif.Opt.C145_newton",
    "Verif.Opt.C145_newton_default",
    "Verif.Opt.C145_stopping_reason"
   ],
   "note": "Exact arithmetic (real numbers), zero start (without use_rand, or use_rand with a zero vector). C145_newton assumes mininner <= 0; C145_newton_default is for the default mininner = 1 and excludes the case in which the first inner iteration solves the Newton equation exactly, where the code divides zero by zero (C102). C145_interior_any_radius needs no linearity."
  },
  {
   "property": "C146",
   "status": "proved",
   "theorems": [
    "Verif.Geo.C146_complex_circle",
    "Verif.Geo.C146_eigenvector",
    "Verif.Geo.C146_eigenvector_model",
    "Verif.Geo.C146_euclidean",
    "Verif.Geo.C146_euclidean_model",
    "Verif.Geo.C146_euclidean_runs",
    "Verif.Geo.C146_grassmann",
    "Verif.Geo.C146_oblique",
    "Verif.Geo.C146_spd",
    "Verif.Geo.C146_special_orthogonal",
    "Verif.Geo.C146_sphere",
    "Verif.Geo.C146_stiefel",
    "Verif.Opt.C146_iterations",
    "Verif.Opt.C146_mem",
    "Verif.Opt.C146_order",
    "Verif.Opt.C146_step"
   ],
   "note": "In exact arithmetic, without use_rand, with mininner smaller and maxinner at least as large as the dimension (as by default for dimension 2 and more). TCGNewton and NewtonModel are the hypotheses: the first holds on the manifolds named in the theorems C146_euclidean to C146_special_orthogonal for every symmetric Hessian, the second is proved for the eigenvector problem on the sphere and for costs with Lipschitz Hessian on Euclidean space, with explicit constants; the size of the neighbourhood is far from optimal (64 C B delta < mu^3)."
  },
  {
   "property": "C147",
   "status": "proved",
   "theorems": [
    "Verif.Geo.C147_eigenvector",
    "Verif.Geo.C147_eigenvector_domination",
    "Verif.Geo.C147_regression",
    "Verif.Geo.C147_strongly_convex",
    "Verif.Opt.C147_adaptive",
    "Verif.Opt.C147_backTracking"
   ],
   "note": "In exact arithmetic. The line searcher must be able to contract its first step far enough within its maximal number of contractions (hbudget); for the back-tracking searcher this involves the ratio of the initial distance to eps^2, for the adaptive one it does not depend on eps. C147_eigenvector is a run of the default line searcher with explicit constants; C147_strongly_convex and C147_regression give the domination, the quadratic upper bounds are those of C127."
  },
  {
   "property": "C148",
   "status": "proved",
   "theorems": [
    "Verif.Geo.C148_complex_circle",
    "Verif.Geo.C148_euclidean",
    "Verif.Geo.C148_fixed_rank",
    "Verif.Geo.C148_grassmann",
    "Verif.Geo.C148_oblique",
    "Verif.Geo.C148_positive",
    "Verif.Geo.C148_positive_definite",
    "Verif.Geo.C148_positive_parallel",
    "Verif.Geo.C148_product",
    "Verif.Geo.C148_psd",
    "Verif.Geo.C148_special_hpd",
    "Verif.Geo.C148_special_orthogonal",
    "Verif.Geo.C148_sphere",
    "Verif.Geo.C148_sphere_subspace",
    "Verif.Geo.C148_stiefel",
    "Verif.Geo.C148_symmetric",
    "Verif.Geo.C148_unitary"
   ],
   "note": "Exact scalars. The elliptope is left out: its transport need not return a tangent vector (C77). Determinant-one matrices: linear, tangent, identity at the same point; nothing is claimed about lengths. The semidefinite manifolds are for every projection that solves the Lyapunov equation exactly."
  },
  {
   "property": "C149",
   "status": "proved",
   "theorems": [
    "Verif.Geo.C149_euclidean",
    "Verif.Geo.C149_euclidean_runs",
    "Verif.Geo.C149_euclidean_search",
    "Verif.Geo.C149_exact_hit",
    "Verif.Geo.C149_finite",
    "Verif.Geo.C149_rules"
   ],
   "note": "Exact arithmetic. C149_rules: same runs for all rules; C149_finite: number of iterations, minimality over Krylov spaces, final gradient; C149_exact_hit: the only failure, a division by zero after the minimiser was found (Python-float scalars; with numpy scalars C12_numpy_partial); C149_euclidean, C149_euclidean_search, C149_euclidean_runs: quadratic functions on the Euclidean manifold. The line searchers of the package are not exact; the theorem is about a user-supplied one."
  },
  {
   "property": "C150",
   "status": "partial",
   "theorems": [
    "Verif.Opt.C150_adaptive",
    "Verif.Opt.C150_backTracking",
    "Verif.Opt.C150_centroid",
    "Verif.Opt.C150_conjugateGradient_afterwards",
    "Verif.Opt.C150_conjugateGradient_needs",
    "Verif.Opt.C150_conjugateGradient_partial",
    "Verif.Opt.C150_conjugateGradient_reuse",
    "Verif.Opt.C150_hestenesStiefel_swallows",
    "Verif.Opt.C150_nelderMead",
    "Verif.Opt.C150_nelderMead_needs",
    "Verif.Opt.C150_no_gradient",
    "Verif.Opt.C150_no_hessian",
    "Verif.Opt.C150_no_log_nelderMead",
    "Verif.Opt.C150_no_log_particleSwarm",
    "Verif.Opt.C150_no_transport",
    "Verif.Opt.C150_particleSwarm",
    "Verif.Opt.C150_particleSwarm_needs",
    "Verif.Opt.C150_steepestDescent",
    "Verif.Opt.C150_steepestDescent_afterwards",
    "Verif.Opt.C150_steepestDescent_needs",
    "Verif.Opt.C150_steepestDescent_reuse",
    "Verif.Opt.C150_trustRegions",
    "Verif.Opt.C150_trustRegions_needs"
   ],
   "note": "Partial: the Hestenes-Stiefel rule catches ZeroDivisionError, including one raised by inner_product itself, and continues with beta = 1 (C150_hestenesStiefel_swallows); C150_conjugateGradient_partial covers the other exceptions and rules. An exception is an operation's outcome at its arguments: functions that raise depending on earlier calls are not covered, interrupts at arbitrary points are (the *_afterwards and *_reuse theorems, on the memory kept in the optimizer object)."
  },
  {
   "property": "C151",
   "status": "proved",
   "theorems": [
    "Verif.Core.C151_centroid_example",
    "Verif.Core.C151_centroid_never",
    "Verif.Core.C151_centroid_raises",
    "Verif.Core.C151_conjugateGradient_never",
    "Verif.Core.C151_nelderMead_never",
    "Verif.Core.C151_nelderMead_raises",
    "Verif.Core.C151_steepestDescent_never",
    "Verif.Core.C151_steepestDescent_typeError",
    "Verif.Core.C151_trustRegions_never"
   ],
   "note": "A defect of the code, stated as it is. Trust regions without use_rand: with it the plain list is first added to a vector, which concatenates lists and is outside the model of values. C151_centroid_example is a run that ends with TypeError."
  },
  {
   "property": "C152",
   "status": "proved",
   "theorems": [
    "Verif.Core.C152_centroid",
    "Verif.Core.C152_conjugateGradient",
    "Verif.Core.C152_nelderMead",
    "Verif.Core.C152_no_hessian",
    "Verif.Core.C152_no_nelderMead",
    "Verif.Core.C152_no_particleSwarm",
    "Verif.Core.C152_no_shrinkage",
    "Verif.Core.C152_particleSwarm",
    "Verif.Core.C152_poincare_conjugateGradient",
    "Verif.Core.C152_product",
    "Verif.Core.C152_product_conjugateGradient",
    "Verif.Core.C152_product_no_conjugateGradient",
    "Verif.Core.C152_product_no_nelderMead",
    "Verif.Core.C152_product_no_particleSwarm",
    "Verif.Core.C152_product_particleSwarm",
    "Verif.Core.C152_product_steepestDescent",
    "Verif.Core.C152_product_trustRegions",
    "Verif.Core.C152_steepestDescent",
    "Verif.Core.C152_trustRegions",
    "Verif.Core.Cls.C152_elliptope_exp",
    "Verif.Core.Cls.C152_instances",
    "Verif.Core.Cls.C152_methods"
   ],
   "note": "The table is computed from the class statements, method definitions and calls on self and super() recorded in Core/Model/Classes.lean, for all classes and methods. Whether a method that is implemented returns (and not, for example, raises LinAlgError) is a hypothesis of the positive theorems. For products, C152_product is about the methods of the Product model called with arbitrary values; the theorems on optimizers assume that the methods return, or raise, as C152_product says. Nelder-Mead is not claimed to run on products: its centroid fails there (C151)."
  },
  {
   "property": "C153",
   "status": "proved",
   "theorems": [
    "Verif.Geo.C153_eigenvalues",
    "Verif.Geo.C153_euclidean",
    "Verif.Geo.C153_iterations",
    "Verif.Geo.C153_rate",
    "Verif.Geo.C153_steepest"
   ],
   "note": "With real arithmetic and an exact line search, as in C149. For steepest descent the line search is assumed to stay at a critical point when searching along the zero direction."
  },
  {
   "property": "C154",
   "status": "proved",
   "theorems": [
    "Verif.Opt.C154_accuracy",
    "Verif.Opt.C154_eigenvalues",
    "Verif.Opt.C154_products"
   ],
   "note": "Exact arithmetic, started at the zero vector (use_rand off), as in C145."
  },
  {
   "property": "C155",
   "status": "proved",
   "theorems": [
    "Verif.Geo.C155_centroid_outside_hull",
    "Verif.Geo.C155_nondegenerate",
    "Verif.Geo.C155_ordered_costs",
    "Verif.Geo.C155_quasiconvex",
    "Verif.Geo.C155_replacement",
    "Verif.Geo.C155_shrinkage",
    "Verif.Geo.C155_shrinkage_can_increase"
   ],
   "note": "Costs without NaN for the ordered costs; real arithmetic for the statements about Euclidean spaces. The centroid is a parameter there; C155_centroid_outside_hull shows in exact rational arithmetic that compute_centroid does not return a point of the convex hull in general."
  },
  {
   "property": "C156",
   "status": "proved",
   "theorems": [
    "Verif.Geo.C156_euclidean",
    "Verif.Geo.C156_poincare",
    "Verif.Geo.C156_positive",
    "Verif.Geo.C156_positive_definite",
    "Verif.Opt.C156_adaptive",
    "Verif.Opt.C156_backTracking"
   ],
   "note": "Real arithmetic. The line searcher must be able to contract its first trial step to the size accepted under the quadratic bound within max_iterations; this is a hypothesis on the parameters."
  },
  {
   "property": "C157",
   "status": "proved",
   "theorems": [
    "Verif.Geo.C157_descent",
    "Verif.Geo.C157_directions",
    "Verif.Geo.C157_euclidean",
    "Verif.Geo.C157_negation",
    "Verif.Geo.C157_strongly_convex",
    "Verif.Opt.C157_adaptive",
    "Verif.Opt.C157_backTracking"
   ],
   "note": "Real arithmetic; a run in which the rule divides by zero raises and is not covered. For the speed the line searcher must be able to contract its first trial step to the size accepted under the quadratic bound within max_iterations. C157_negation is about Fletcher-Reeves only."
  },
  {
   "property": "C158",
   "status": "partial",
   "theorems": [
    "Verif.Geo.C158_complexCircle",
    "Verif.Geo.C158_complexCircle_conversions",
    "Verif.Geo.C158_elliptope",
    "Verif.Geo.C158_elliptope_conversions",
    "Verif.Geo.C158_euclidean",
    "Verif.Geo.C158_euclidean_conversions",
    "Verif.Geo.C158_fixedRank",
    "Verif.Geo.C158_fixedRank_gradient",
    "Verif.Geo.C158_grassmann",
    "Verif.Geo.C158_grassmann_conversions",
    "Verif.Geo.C158_oblique",
    "Verif.Geo.C158_oblique_conversions",
    "Verif.Geo.C158_poincareBall",
    "Verif.Geo.C158_poincareBall_conversions",
    "Verif.Geo.C158_positive",
    "Verif.Geo.C158_positiveDefinite",
    "Verif.Geo.C158_positiveDefinite_conversions",
    "Verif.Geo.C158_positive_conversions",
    "Verif.Geo.C158_problem",
    "Verif.Geo.C158_problem_scales",
    "Verif.Geo.C158_product",
    "Verif.Geo.C158_product_conversions",
    "Verif.Geo.C158_psd",
    "Verif.Geo.C158_psd_conversions",
    "Verif.Geo.C158_skewSymmetric_conversions",
    "Verif.Geo.C158_specialHpd",
    "Verif.Geo.C158_specialHpd_gradient",
    "Verif.Geo.C158_specialOrthogonal",
    "Verif.Geo.C158_specialOrthogonal_conversions",
    "Verif.Geo.C158_sphere",
    "Verif.Geo.C158_sphereSubspace",
    "Verif.Geo.C158_sphereSubspace_conversions",
    "Verif.Geo.C158_sphere_conversions",
    "Verif.Geo.C158_stiefel",
    "Verif.Geo.C158_stiefel_conversions",
    "Verif.Geo.C158_symmetric",
    "Verif.Geo.C158_symmetric_conversions",
    "Verif.Opt.C158_adaptive",
    "Verif.Opt.C158_backTracking",
    "Verif.Opt.C158_conjugateGradient_partial",
    "Verif.Opt.C158_negation_hagerZhang",
    "Verif.Opt.C158_negation_shift",
    "Verif.Opt.C158_negation_theta",
    "Verif.Opt.C158_nelderMead",
    "Verif.Opt.C158_particleSwarm",
    "Verif.Opt.C158_steepestDescent",
    "Verif.Opt.C158_tcg",
    "Verif.Opt.C158_trustRegions_partial"
   ],
   "note": "Real arithmetic for the methods with gradients; any ordered numbers for Nelder-Mead and particle swarm (the sort must commute with the increasing function, as a stable sort by cost does). C158_conjugateGradient_partial needs a rule other than HagerZhang, C158_trustRegions_partial needs rho_regularization = 0 and theta = 0 (or a = 1): without these the property is false, see C158_negation_hagerZhang, C158_negation_shift, C158_negation_theta. For the positive semidefinite matrices of fixed rank and the elliptope the solver of the Lyapunov equation is any that solves it; the Poincare ball implements no transport."
  },
  {
   "property": "C159",
   "status": "proved",
   "theorems": [
    "Verif.Opt.C159_accuracy",
    "Verif.Opt.C159_action",
    "Verif.Opt.C159_conjugateGradient",
    "Verif.Opt.C159_distinct",
    "Verif.Opt.C159_fixed",
    "Verif.Opt.C159_gradientTable",
    "Verif.Opt.C159_negation_norm",
    "Verif.Opt.C159_nelderMead",
    "Verif.Opt.C159_nelderMead_run",
    "Verif.Opt.C159_particleSwarm",
    "Verif.Opt.C159_reason",
    "Verif.Opt.C159_roundtrip",
    "Verif.Opt.C159_steepestDescent",
    "Verif.Opt.C159_swarmTable",
    "Verif.Opt.C159_trustRegions",
    "Verif.Opt.C159_trustRegions_run"
   ],
   "note": "Python's format codes d, e, f and g are modelled on rationals (no negative zero); binary64 without bounds on the exponent for reading back (no subnormal numbers), with the bounds for the lengths. int(np.log10(max_iterations)) is taken without rounding. The runs are those that return; ConjugateGradient with verbosity 2, as higher ones print further lines between the rows. C159_negation_norm: gradient norms cannot be read back."
  },
  {
   "property": "C160",
   "status": "proved",
   "theorems": [
    "Verif.Opt.C160_adaptive",
    "Verif.Opt.C160_backTracking",
    "Verif.Opt.C160_converse",
    "Verif.Opt.C160_firstOrder",
    "Verif.Opt.C160_runs"
   ],
   "note": "Real arithmetic. The two runs are given the same clock readings."
  },
  {
   "property": "C161",
   "status": "partial",
   "theorems": [
    "Verif.Core.C161_available",
    "Verif.Core.C161_call",
    "Verif.Core.C161_fromNumpy",
    "Verif.Core.C161_inPlace",
    "Verif.Core.C161_negation",
    "Verif.Core.C161_version",
    "Verif.Core.C161_version_partial"
   ],
   "note": "PyTorch versions are compared as texts (C161_version says for which versions the test succeeds), which is wrong for major version 0 with minor versions of several digits (C161_negation); C161_version_partial excludes these (none was released). Strides count elements; the libraries' conversions are modelled by what they do to shape and elements; data types are not modelled."
  },
  {
   "property": "C162",
   "status": "proved",
   "theorems": [
    "Verif.Opt.C162_negation_conjugateGradient",
    "Verif.Opt.C162_negation_fresh",
    "Verif.Opt.C162_negation_trustRegions",
    "Verif.Opt.C162_object",
    "Verif.Opt.C162_steepestDescent"
   ],
   "note": "The property as stated, with its exceptions: C162_negation_fresh, C162_negation_conjugateGradient and C162_negation_trustRegions show that they are real."
  },
  {
   "property": "C163",
   "status": "partial",
   "theorems": [
    "Verif.Opt.C163_conjugateGradient_partial",
    "Verif.Opt.C163_lineSearch_nan",
    "Verif.Opt.C163_negation_conjugateGradient",
    "Verif.Opt.C163_negation_steepestDescent",
    "Verif.Opt.C163_nelderMead",
    "Verif.Opt.C163_particleSwarm",
    "Verif.Opt.C163_steepestDescent_partial",
    "Verif.Opt.C163_trustRegions"
   ],
   "note": "False for SteepestDescent and ConjugateGradient (C163_negation_steepestDescent, C163_negation_conjugateGradient): both line searchers accept a first trial whose cost is NaN (C163_lineSearch_nan), because every comparison with NaN is False. C163_steepestDescent_partial and C163_conjugateGradient_partial assume that no evaluated cost is NaN (infinite ones are allowed). The statements about TrustRegions, NelderMead and ParticleSwarm are proved in full; the one about NelderMead for sorts that put NaN last, as np.argsort does."
  },
  {
   "property": "C164",
   "status": "partial",
   "theorems": [
    "Verif.Opt.C164_conjugateGradient",
    "Verif.Opt.C164_conjugateGradient_raises",
    "Verif.Opt.C164_negation_particleSwarm",
    "Verif.Opt.C164_negation_trustRegions",
    "Verif.Opt.C164_nelderMead",
    "Verif.Opt.C164_nelderMead_raises",
    "Verif.Opt.C164_particleSwarm_partial",
    "Verif.Opt.C164_particleSwarm_raises_partial",
    "Verif.Opt.C164_steepestDescent",
    "Verif.Opt.C164_steepestDescent_raises",
    "Verif.Opt.C164_trustRegions",
    "Verif.Opt.C164_trustRegions_cost_partial",
    "Verif.Opt.C164_trustRegions_raises"
   ],
   "note": "Two parts are false. TrustRegions with the default rho_regularization may return a larger cost after more iterations (C164_negation_trustRegions); C164_trustRegions_cost_partial assumes rho_regularization = 0 and rho_prime >= 0. ParticleSwarm with a larger max_iterations visits other points and may return a larger cost, because the inertia depends on max_iterations (C164_negation_particleSwarm); C164_particleSwarm_partial and C164_particleSwarm_raises_partial are about the other limits. All else is proved as stated. looser_time connects max_time with the hypothesis on deadlines."
  },
  {
   "property": "C165",
   "status": "proved",
   "theorems": [
    "Verif.Geo.C165_lists",
    "Verif.Geo.C165_negation_hessian",
    "Verif.Geo.C165_norms",
    "Verif.Geo.C165_reorder",
    "Verif.Geo.C165_single"
   ],
   "note": "The property as stated, with its exception: C165_negation_hessian. C165_norms lists the classes whose norm is the root of the inner product. FixedRankEmbedded (tangent vectors of another type than points) and UnitaryGroup (complex inner products, on which the line searchers compare complex numbers) are not factors in the model of products used for runs; C165_lists covers them as factors."
  },
  {
   "property": "C166",
   "status": "proved",
   "theorems": [
    "Verif.Geo.C166_complex_circle",
    "Verif.Geo.C166_euclidean",
    "Verif.Geo.C166_midpoint",
    "Verif.Geo.C166_negation_opposite",
    "Verif.Geo.C166_negation_unique",
    "Verif.Geo.C166_oblique",
    "Verif.Geo.C166_poincare",
    "Verif.Geo.C166_product",
    "Verif.Geo.C166_so_stack_partial",
    "Verif.Geo.C166_special_orthogonal",
    "Verif.Geo.C166_special_orthogonal_single",
    "Verif.Geo.C166_special_orthogonal_unique",
    "Verif.Geo.C166_sphere",
    "Verif.Geo.C166_unitary",
    "Verif.Geo.C166_unitary_unique"
   ],
   "note": "The property as stated, in real arithmetic. C166_midpoint is the general argument; C166_negation_opposite shows that the exceptions about the eigenvalue -1 are needed, C89_negation the one about PoincareBall. C166_unitary_unique and C166_special_orthogonal_unique, for the distances as computed C166_special_orthogonal_single, show that no other point is half way on the groups; C166_negation_unique that a point and its negative have two such points. On stacks of rotations other points can have the same sum, because dist vanishes between different points (C119_special_orthogonal_negation); that the mean is half way holds there, too (C166_so_stack_partial)."
  },
  {
   "property": "C167",
   "status": "proved",
   "theorems": [
    "Verif.Core.C167_arguments",
    "Verif.Core.C167_derivative",
    "Verif.Core.C167_gradient",
    "Verif.Core.C167_gradient_verdict",
    "Verif.Core.C167_hessian",
    "Verif.Core.C167_hessian_verdict",
    "Verif.Core.C167_negation_equation",
    "Verif.Core.C167_numbers",
    "Verif.Core.C167_retraction"
   ],
   "note": "The property as stated. C167_numbers is about the format code g; C167_negation_equation shows the sentence about the three numbers. Negative zero is not modelled, nor is np.log10 of a vanishing distance in check_retraction."
  },
  {
   "property": "C168",
   "status": "proved",
   "theorems": [
    "Verif.Core.C168_gradient",
    "Verif.Core.C168_gradient_parallel",
    "Verif.Core.C168_hessian",
    "Verif.Core.C168_hessian_parallel",
    "Verif.Core.C168_retraction",
    "Verif.Core.C168_retraction_parallel",
    "Verif.Core.C168_shown"
   ],
   "note": "The property as stated, in real arithmetic. Points with error 0 do not appear on logarithmic axes and do not count for the slope. If the model is exact up to 1e-12 the thick line goes along all step sizes and its slope is what the code returns then (fitted to the errors, not to their logarithms). Labels, titles and colours are not modelled."
  }
 ]
}