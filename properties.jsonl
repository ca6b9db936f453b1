{"id": "C01", "title": "Moment -> natural -> moment round trip", "statement": "If a Gaussian is built from a mean vector and a symmetric positive definite covariance, and its precision and shift are read and fed to Gaussian.from_natural, then reading mean and cov of the result returns exactly the original mean and covariance, as long as the trace of the precision is at least 1e-10 and scipy reports neither matrix as ill-conditioned; if scipy warns about the covariance, or the covariance is only semidefinite, the precision of covariance + 1e-10*I is read instead, or LinAlgWarning is raised if scipy warns about that matrix in both attempts.", "quantifier": "every dimension, every mean vector, every symmetric positive definite covariance whose inverse has trace >= 1e-10; for the natural parameters read, every positive semidefinite covariance", "why_tests_cant": "Infinitely many dimensions and matrices; the unit tests draw a few random 2..5-dimensional matrices.", "anchors": ["StateModel/Gaussian.py:moment_to_natural", "StateModel/Gaussian.py:natural_to_moment", "StateModel/Gaussian.py:Gaussian"]}
{"id": "C02", "title": "Natural -> moment -> natural round trip", "statement": "If a Gaussian is built from a symmetric positive definite precision with trace at least 1e-10 and a shift, and its mean and cov are read and fed to Gaussian(mean, cov), then reading precision and shift of the result returns exactly the original natural parameters, as long as scipy reports neither matrix as ill-conditioned.", "quantifier": "every dimension, precision matrix and shift vector in that class", "why_tests_cant": "Quantifies over all positive definite matrices of all sizes.", "anchors": ["StateModel/Gaussian.py:natural_to_moment", "StateModel/Gaussian.py:moment_to_natural"]}
{"id": "C03", "title": "Vanishing precision is read back as the broad default", "statement": "Whenever the trace of the precision is below 1e-10 (zero, tiny or negative), reading mean and cov succeeds and yields mean zero and covariance 1e10*I, whatever the shift is; in particular a round trip through natural parameters is lossy for every Gaussian whose covariance is that broad.", "quantifier": "every square precision with trace < 1e-10 and every shift", "why_tests_cant": "The set of such precisions is unbounded and includes indefinite matrices.", "anchors": ["StateModel/Gaussian.py:natural_to_moment", "StateModel/Gaussian.py:LARGE_NUM"]}
{"id": "C04", "title": "Reading attributes never changes what is read", "statement": "On any Gaussian, after any finite sequence of reads of mean, cov, precision, shift, dim in any order (including reads that raise), each further read gives the same value or the same exception as it would on the freshly built object; in particular the internal lazy caches are unobservable. The only exception are objects built from a mean without covariance together with a shift: there reading cov changes what mean shows.", "quantifier": "every Gaussian however constructed, every finite history of reads", "why_tests_cant": "Number of read histories is unbounded; caching bugs show only for particular orders.", "anchors": ["StateModel/Gaussian.py:Gaussian.mean", "StateModel/Gaussian.py:Gaussian.cov", "StateModel/Gaussian.py:Gaussian.precision", "StateModel/Gaussian.py:Gaussian.shift", "StateModel/Gaussian.py:Gaussian.dim"]}
{"id": "C05", "title": "* multiplies densities", "statement": "For Gaussians a and b of the same dimension with symmetric precisions, the unnormalised density exp(-x'Px/2 + x'h) of a*b is the pointwise product of those of a and b, at every point x; hence * is commutative and associative in its parameters.", "quantifier": "every dimension, all natural parameters, every evaluation point x", "why_tests_cant": "Pointwise equality of functions on R^n for all parameters.", "anchors": ["StateModel/Gaussian.py:Gaussian.__mul__"]}
{"id": "C06", "title": "/ undoes *", "statement": "For Gaussians a, b of the same dimension with symmetric precisions, (a*b)/b and (a*b)/a have exactly the natural parameters of a and b respectively, and hence the same mean and covariance; also (a/b)*b = a.", "quantifier": "every dimension and all symmetric natural parameters", "why_tests_cant": "All matrices of all sizes; the unit test checks one random pair.", "anchors": ["StateModel/Gaussian.py:Gaussian.__mul__", "StateModel/Gaussian.py:Gaussian.__truediv__"]}
{"id": "C07", "title": "** obeys the laws of powers", "statement": "a**1 has a's natural parameters; a**0 is the neutral factor; (a**p)**q = a**(p*q); a**p * a**q = a**(p+q) for symmetric precision; a**k equals the k-fold product a*...*a for every integer k >= 1; (a*b)**p = a**p * b**p.", "quantifier": "every dimension, every Gaussian with symmetric precision, all real powers, all k", "why_tests_cant": "Induction over k and reals p, q; the unit tests use integers 3..7.", "anchors": ["StateModel/Gaussian.py:Gaussian.__pow__", "StateModel/Gaussian.py:Gaussian.__mul__"]}
{"id": "C08", "title": "as_factor is the neutral element", "statement": "Gaussian.as_factor(n) multiplied with or divided out of any n-dimensional Gaussian with symmetric precision leaves its natural parameters unchanged; its own mean is 0 and cov is 1e10*I, the moments of Gaussian.as_marginal(n).", "quantifier": "every dimension and every Gaussian", "why_tests_cant": "All dimensions.", "anchors": ["StateModel/Gaussian.py:Gaussian.as_factor", "StateModel/Gaussian.py:Gaussian.as_marginal", "StateModel/Gaussian.py:GaussianFactor"]}
{"id": "C09", "title": "copy is faithful", "statement": "g.copy() reads the same mean, cov, precision and shift (or raises the same way) as g, for every Gaussian built from one complete parametrisation, whatever was read before copying.", "quantifier": "every Gaussian built from (mean, cov) or (precision, shift) and every prior read history", "why_tests_cant": "Unbounded read histories.", "anchors": ["StateModel/Gaussian.py:Gaussian.copy"]}
{"id": "C10", "title": "== is a tolerance test, reflexive but not an equivalence", "statement": "g == h holds iff |mean_g - mean_h| <= 1e-3 + 1e-3*|mean_h| and |cov_g - cov_h| <= 1e-3 + 1e-3*|cov_h| entrywise. It is reflexive; a user relying on it as an equality relation would need symmetry, which fails, and transitivity, which fails.", "quantifier": "every pair of same-dimension Gaussians", "why_tests_cant": "Reflexivity over all Gaussians; failing pairs lie in a thin boundary set that random tests do not hit.", "anchors": ["StateModel/Gaussian.py:Gaussian.__eq__"]}
{"id": "C11", "title": "Assigning an attribute does not refresh derived parameters", "statement": "After precision or shift has been read once from a moment-built Gaussian, assigning a new mean or cov leaves precision and shift at their old values, so the object becomes inconsistent; if nothing derived was read before, derived values reflect the assignment. The same holds with the roles exchanged for states built from natural parameters. A derived parameter assigned before the other one was read is overwritten when the other one is read. dim and chol_cov keep the value of their first successful read, whatever is assigned afterwards.", "quantifier": "every Gaussian built from moments with positive definite covariance or from natural parameters with positive definite precision, every value assigned; for dim and chol_cov every object", "why_tests_cant": "Depends on the order of reads and writes over the object's history.", "anchors": ["StateModel/Gaussian.py:Gaussian.mean.setter", "StateModel/Gaussian.py:Gaussian.precision"]}
{"id": "C12", "title": "symmetrize and covariance validation", "statement": "symmetrize returns a symmetric matrix, is idempotent and fixes symmetric matrices. validate_covariance(state) succeeds exactly when the symmetric matrix given by the lower triangle of state.cov is positive definite, otherwise raises LinAlgError; it never changes the state.", "quantifier": "every square matrix of every size", "why_tests_cant": "All matrices.", "anchors": ["Utils/linalg.py:symmetrize", "Utils/linalg.py:validate_covariance"]}
{"id": "C13", "title": "Jittered inversion of singular but semidefinite precisions", "statement": "If a precision matrix is symmetric positive semidefinite but not positive definite, or scipy warns about it, and its trace is at least 1e-10, reading cov yields the exact inverse of precision + 1e-10*I, which is positive definite, unless scipy reports precision + 1e-10*I as ill-conditioned in both solve attempts; in that case a LinAlgWarning escapes from reading the mean and the covariance.", "quantifier": "every dimension, every such matrix, every shift", "why_tests_cant": "Singular matrices have measure zero, random tests never draw them.", "anchors": ["StateModel/Gaussian.py:natural_to_moment", "Utils/linalg.py:jittered_solve"]}
{"id": "C14", "title": "Unscented weights sum to one", "statement": "For UnscentedTransform(dim, alpha, beta, kappa) with alpha^2*(dim+kappa) != 0 the mean weights sum to 1, the covariance weight matrix W is symmetric and annihilates constants (W 1 = 0).", "quantifier": "every dimension and all real alpha, beta, kappa with nonzero denominator", "why_tests_cant": "All dimensions and real parameters.", "anchors": ["MomentMatching/UnscentedTransform.py:UnscentedTransform._weights"]}
{"id": "C15", "title": "Unscented transform is exact for affine functions", "statement": "For every affine function x -> A x + b applied row-wise, any Gaussian with mean vector m and positive definite covariance P, and parameters with alpha^2*(dim+kappa) > 0, the transform returns mean A m + b, covariance A P A' and cross covariance P A'.", "quantifier": "every state dimension, output dimension, A, b, m, P and admissible parameters", "why_tests_cant": "Universal over dimensions, matrices and reals.", "anchors": ["MomentMatching/UnscentedTransform.py:UnscentedTransform._transform", "MomentMatching/UnscentedTransform.py:UnscentedTransform._sigma_points"]}
{"id": "C16", "title": "Unscented covariance is symmetric, and semidefinite when the centre weight allows", "statement": "The unscented output covariance is symmetric for every function; it is positive semidefinite for every function whenever all covariance weights are nonnegative; with a negative centre weight there are functions for which it is not. Exactly: if alpha^2 (n + kappa) > 0 it is positive semidefinite for all functions and states if and only if alpha^2 kappa + n beta >= 0.", "quantifier": "every function, every dimension, every Gaussian", "why_tests_cant": "Quantifies over all nonlinear functions.", "anchors": ["MomentMatching/UnscentedTransform.py:UnscentedTransform._transform", "MomentMatching/UnscentedTransform.py:UnscentedTransform._weights"]}
{"id": "C17", "title": "Taylor transform is exact for affine functions and always semidefinite", "statement": "For an affine function the Taylor transform returns A m + b, A P A' and P A'; for any differentiable function the returned covariance J P J' is symmetric positive semidefinite. Shape caveat: for functions returning rows of shape (1,k) this needs state and output dimension different from 1, because the code squeezes every length-1 axis of the Jacobian (see C61).", "quantifier": "every dimension, affine map, Gaussian; every Jacobian", "why_tests_cant": "Universal over matrices.", "anchors": ["MomentMatching/TaylorLinearisation.py:TaylorTransform._transform"]}
{"id": "C18", "title": "Monte Carlo transform is affine equivariant for every draw", "statement": "For every sample set of N >= 2 points drawn, applying the Monte Carlo transform to x -> A x + b returns exactly A times the sample mean plus b, A S A' and S A', where S is the sample covariance of the draw; the returned covariance is always symmetric positive semidefinite.", "quantifier": "every sample count >= 2, every draw, every dimension, every A and b", "why_tests_cant": "Holds per draw, not in distribution; draws are unbounded.", "anchors": ["MomentMatching/MonteCarloTransform.py:MonteCarloTransform._transform", "MomentMatching/MonteCarloTransform.py:MonteCarloTransform.sample_covariance"]}
{"id": "C19", "title": "Numerical Jacobian: exact on quadratics, error of second order otherwise", "statement": "TaylorTransform.numerical_jacobian(f, x, eps) returns exactly the Jacobian matrix (row = output, column = input) for every f whose components are polynomials of degree at most two, for every eps != 0 and every dimension n >= 1. For other functions the entries tend to the partial derivatives as the step shrinks, and an entry is off by at most a sixth of the square of the step times the largest third derivative along that coordinate within the step. At a number instead of a vector it raises TypeError. An exception of f at x itself is raised too, although the value there is not used; a result means that f could be evaluated at x and at all moved points. A matrix is moved by whole rows: entry (l, a, i) of the result is the central difference of output (a, l) when the step is added to every entry of row i. So at a state written as a single row an affine function A x + b gives an array of shape (outputs, 1, 1) with the row sums of A, not A.", "quantifier": "every dimension, point, step and function (quadratic for exactness, three times differentiable along the coordinates for the bound)", "why_tests_cant": "All quadratic maps in all dimensions.", "anchors": ["MomentMatching/TaylorLinearisation.py:TaylorTransform.numerical_jacobian"]}
{"id": "C20", "title": "Predict is the exact time update for affine dynamics", "statement": "With an exact-on-affine transform (Taylor or unscented) and affine transition A x + b, KalmanFilterSmoother.predict returns mean A m + b and covariance A P A' + Q; the result is positive definite if Q is.", "quantifier": "every dimension, A, b, m, P, Q", "why_tests_cant": "Universal over matrices.", "anchors": ["Filters/KalmanFilter.py:KalmanFilterSmoother.predict"]}
{"id": "C21", "title": "Correct is exact Bayesian conditioning", "statement": "With an affine measurement H x + c, prior N(m,P) and noise R both positive definite, KalmanFilterSmoother.correct returns the Gaussian with precision P^-1 + H'R^-1 H and shift P^-1 m + H'R^-1 (y - c): its density is proportional to prior density times measurement likelihood at every x.", "quantifier": "every state and measurement dimension, H, c, m, P, R, y, x", "why_tests_cant": "Universal over matrices, pointwise in x.", "anchors": ["Filters/KalmanFilter.py:KalmanFilterSmoother.correct"]}
{"id": "C22", "title": "A measurement never increases uncertainty", "statement": "Whenever the innovation covariance returned by the transform plus R is positive definite, the corrected covariance is at most the prior covariance in the Loewner order, for every transform and measurement function; for affine measurements it is also positive definite.", "quantifier": "every transform output, state, measurement", "why_tests_cant": "Universal over transforms and matrices.", "anchors": ["Filters/KalmanFilter.py:KalmanFilterSmoother.correct"]}
{"id": "C23", "title": "Smoothing step consistency", "statement": "smooth(state, next_state) returns state itself when next_state has exactly the predicted mean and covariance; in general it returns mean m + J(mu - mu_pred), covariance P + J(S - S_pred)J' with J = C S_pred^-1; if next_state is more certain than the prediction, the result is at most as uncertain as the filtered state.", "quantifier": "every transform output, every state and next_state", "why_tests_cant": "Universal over matrices.", "anchors": ["Filters/KalmanFilter.py:KalmanFilterSmoother.smooth"]}
{"id": "C24", "title": "Filter output is causal and one per measurement", "statement": "kalman_filter returns exactly one state per measurement, and its first k results depend only on the first k measurements: filtering a prefix returns the prefix of the results. If some step raises, the whole call raises. Filtering can be interrupted: filtering ys + zs is filtering ys and then zs with prior_state the last state obtained and t_zero advanced by len(ys) * dt, for kalman_filter and for the iterated filter. If the functions do not look at the time, t_zero has no effect.", "quantifier": "every measurement list of every length, every transform and system", "why_tests_cant": "Unbounded lists.", "anchors": ["Filters/KalmanFilter.py:KalmanFilterSmoother.kalman_filter"]}
{"id": "C25", "title": "Smoother output aligns with filter output", "statement": "kalman_smoother(filtered) has the same length as its non-empty input, its last state has the parameters of the last filtered state, and its i-th state depends only on filtered states i..N-1. On an empty list it raises StopIteration.", "quantifier": "every list of filtered states", "why_tests_cant": "Unbounded lists.", "anchors": ["Filters/KalmanFilter.py:KalmanFilterSmoother.kalman_smoother"]}
{"id": "C26", "title": "Smoother and filter use the same time stamps", "statement": "The time stamp the smoother passes to the transition between states i and i+1 equals the one the filter used when predicting state i+1. This holds for t_zero = 0; for t_zero != 0 the smoother ignores t_zero and evaluates the transition at other times.", "quantifier": "every list length, every index, every dt, every t_zero", "why_tests_cant": "All lengths and reals.", "anchors": ["Filters/KalmanFilter.py:KalmanFilterSmoother.kalman_filter", "Filters/KalmanFilter.py:KalmanFilterSmoother.kalman_smoother"]}
{"id": "C27", "title": "IEKF: one iteration is the EKF, further iterations are not Gauss-Newton steps", "statement": "With num_iter = 0 the iterated update returns the predicted state; with one iteration it equals the EKF correction. Further iterations are documented as Gauss-Newton steps (Bell and Cathey) and should leave the exact Kalman correction of an affine measurement unchanged; the code has the wrong sign in z_mean = h_i - H_i (x - m_i). So for affine measurements the correction after j+1 iterations is G (1 + (-2HG) + ... + (-2HG)^j) e instead of G e, the fixed points satisfy (P^-1 + 2 H' R^-1 H)(m - x) = H' R^-1 (y - h(m)) instead of the stationarity condition of the posterior, and for scalar measurements the iterates diverge for h^2 p > r, alternate between prediction and Kalman correction for h^2 p = r, and for h^2 p < r converge to the correction with 3 h^2 p + r in place of the innovation variance h^2 p + r. The [0] in the code presumes that the measurement function returns rows. If it returns vectors, the iterated update raises ValueError unless measurement and state have the same number of components; if they have, it uses only the first component of the measurement function, adds one number to all components of the mean and subtracts one number from all entries of the covariance.", "quantifier": "every num_iter, state, measurement, dimension", "why_tests_cant": "Induction over num_iter.", "anchors": ["Filters/KalmanFilter.py:IEKF._iterated_update"]}
{"id": "C28", "title": "IEKS equals the Kalman smoother on affine systems", "statement": "For affine transition and measurement functions, a fresh IEKS call returns the same smoothed states for every num_iter.", "quantifier": "every num_iter, every measurement list, every affine system", "why_tests_cant": "Unbounded iteration counts and lists.", "anchors": ["Filters/KalmanFilter.py:IEKS.__call__"]}
{"id": "C29", "title": "An IEKS object cannot be reused", "statement": "A user expects two calls of the same IEKS object on the same data to agree. After a call with num_iter >= 2 on a nonempty list the object keeps the last linearised transition and measurement instead of the system's, and the next call's first sweep uses them; so for nonlinear systems the second call can differ. With num_iter <= 1 the object stays reusable.", "quantifier": "every nonlinear system, num_iter and measurement list", "why_tests_cant": "Property of call histories.", "anchors": ["Filters/KalmanFilter.py:IEKS.__call__", "Filters/KalmanFilter.py:IEKS._kalman_filter", "Filters/KalmanFilter.py:IEKS._kalman_smoother"]}
{"id": "C30", "title": "IEKS linearisation point of the transition", "statement": "Bell's iterated smoother linearises the transition from step i-1 to i at the current estimate of state i-1. The implementation linearises it at the estimate of state i; only the measurement is linearised at the right state.", "quantifier": "every trajectory estimate and index", "why_tests_cant": "Index correspondence over all lengths.", "anchors": ["Filters/KalmanFilter.py:IEKS._kalman_filter", "Filters/KalmanFilter.py:IEKS.__call__"]}
{"id": "C31", "title": "build_nodes builds a doubly linked chain", "statement": "build_nodes(N, dim) for N >= 2 returns N nodes with index i, next_node of i being node i+1, prev_node of i being node i-1, None at the ends, marginal N(0,1e10 I) and three neutral factors. N = 0 returns the empty list and N = 1 raises IndexError. Passing system= raises TypeError.", "quantifier": "every N and dim", "why_tests_cant": "All N.", "anchors": ["ExpectationPropagation/Nodes.py:build_nodes", "ExpectationPropagation/Nodes.py:Node.__init__"]}
{"id": "C32", "title": "node_system wires measurements, times and prior", "statement": "node_system with M measurements and N nodes returns the first min(N,M) nodes (len farg_list also truncates); node i gets measurement i and, without farg_list, the transition at time i*dt with u=0; only node 0 gets the prior; no measurements raise IndexError; other nodes keep their attributes.", "quantifier": "every node list, measurement list, dt, farg_list", "why_tests_cant": "All lengths.", "anchors": ["ExpectationPropagation/Nodes.py:node_system"]}
{"id": "C33", "title": "node_estimator: the last estimator wins", "statement": "Equipping nodes with an estimator, possibly several times, makes every later update use the projections, power and damping of the last estimator only.", "quantifier": "every node list and every sequence of estimators", "why_tests_cant": "Histories of equipping calls.", "anchors": ["ExpectationPropagation/Nodes.py:node_estimator"]}
{"id": "C34", "title": "Node updates are atomic under numerical failure", "statement": "If a node update encounters LinAlgError inside its guarded block the update returns normally and the node's marginal and factors are exactly as before; otherwise both the factor and the marginal are replaced together and the new marginal has a covariance accepted by validate_covariance. No update ever leaves a half-updated node, even when another exception escapes.", "quantifier": "every node state, every projection (including failing ones), every power and damping", "why_tests_cant": "Failure points depend on numerical values; all branches must be covered.", "anchors": ["ExpectationPropagation/Nodes.py:Node.fwd_update", "ExpectationPropagation/Nodes.py:Node.meas_update", "ExpectationPropagation/Nodes.py:Node.back_update", "ExpectationPropagation/Nodes.py:Node.power_update"]}
{"id": "C35", "title": "Node updates are local", "statement": "A forward, measurement or backward update changes only the marginal and the corresponding factor of the node it is called on; all other nodes, links, measurements and functions are unchanged.", "quantifier": "every graph, every update, every schedule of updates", "why_tests_cant": "Any schedule of updates over any graph.", "anchors": ["ExpectationPropagation/Nodes.py:Node.fwd_update", "ExpectationPropagation/Nodes.py:Node.meas_update", "ExpectationPropagation/Nodes.py:Node.back_update"]}
{"id": "C36", "title": "Marginal equals product of its factors under every schedule", "statement": "Starting from build_nodes, after any sequence of updates in any order on any nodes with fixed power a, each node's marginal precision equals 1e-10*I plus 1/a times the sum of the precisions of its forward, measurement and backward factors, and likewise for the shift (starting at zero).", "quantifier": "every schedule of updates, every estimator, power != 0 and damping", "why_tests_cant": "All schedules and numerical failures; an invariant over unbounded histories.", "anchors": ["ExpectationPropagation/Nodes.py:Node.fwd_update", "ExpectationPropagation/Nodes.py:Node.meas_update", "ExpectationPropagation/Nodes.py:Node.back_update", "ExpectationPropagation/Nodes.py:Node.power_update"]}
{"id": "C37", "title": "Damping interpolates natural parameters", "statement": "An accepted update with damping g replaces the factor's natural parameters by old + g*(full - old) where full is the undamped replacement; with damping 0 an accepted update leaves the node's natural parameters unchanged; with power 1 and damping 1 an accepted measurement or backward update makes the marginal equal to the projected state.", "quantifier": "every node state, projection, damping and power", "why_tests_cant": "Universal over reals.", "anchors": ["ExpectationPropagation/Nodes.py:Node.power_update", "ExpectationPropagation/Nodes.py:Node.fwd_update"]}
{"id": "C38", "title": "Ends of the chain", "statement": "fwd_update on the first node uses the system prior as cavity and never the marginal of another node; back_update on the last node changes nothing and raises nothing provided its cavity can be formed.", "quantifier": "every graph and state", "why_tests_cant": "All states.", "anchors": ["ExpectationPropagation/Nodes.py:Node.fwd_update", "ExpectationPropagation/Nodes.py:Node.back_update"]}
{"id": "C39", "title": "One EP pass is filter then smoother", "statement": "ep_fwd_back_updates(nodes) has exactly the effect of kalman_filter(nodes) followed by kalman_smoother(nodes): forward and measurement update of nodes 0..N-1 in order, then backward updates N-1..0; if an update raises, all earlier updates stay applied and no later one happens.", "quantifier": "every node list and every update behaviour", "why_tests_cant": "All lengths and failure points.", "anchors": ["ExpectationPropagation/Iterations.py:kalman_filter", "ExpectationPropagation/Iterations.py:kalman_smoother", "ExpectationPropagation/Iterations.py:ep_fwd_back_updates"]}
{"id": "C40", "title": "First EP pass reproduces the Gaussian smoother (1-D)", "statement": "For scalar systems with power = damping = 1 and transforms that treat means of shape (1,1) and (1,) alike and satisfy the Cauchy-Schwarz inequality (e.g. the unscented transform with nonnegative centre weight), one ep_fwd_back_updates pass from build_nodes leaves on every node mean and variance of the Gaussian smoother whose every prediction is multiplied by the initial N(0,1e10) marginal; KalmanFilterSmoother returns the same recursion without that factor, and the recursion is continuous from the right in the precision of the factor (continuous functions). In particular for UniformNonlinearGrowthModel.", "quantifier": "every chain length >= 2, transform as described, scalar nonlinear system, measurement list", "why_tests_cant": "Universal over functions and lengths; the demo notebook compares one run.", "anchors": ["ExpectationPropagation/Nodes.py:Node.fwd_update", "ExpectationPropagation/Nodes.py:Node.meas_update", "ExpectationPropagation/Nodes.py:Node.back_update", "Filters/KalmanFilter.py:KalmanFilterSmoother", "MomentMatching/Estimator.py:Estimator"]}
{"id": "C41", "title": "EP measurement update for multi-dimensional states", "statement": "A user expects meas_update to keep the marginal mean a vector of length dim. In the code an accepted measurement update of a proper node leaves a marginal whose shift, and (unless its precision counts as zero) mean, has shape (dim, dim); the unscented transform with dim != 1 and the Monte Carlo transform in every dimension raise ValueError on such a marginal. Hence for dim >= 2, every power > 0 and damping >= 0, the first EP pass with unscented transforms over nodes from build_nodes raises ValueError: for every affine system with any parameters alpha^2 (n + kappa) > 0, and for every system whose functions act row by row (linear or not) when in addition the covariance weights are nonnegative.", "quantifier": "every dim, number of nodes, estimator, affine or row-wise system, measurement list, power and damping", "why_tests_cant": "All dimensions and values.", "anchors": ["MomentMatching/Estimator.py:Estimator.proj_meas", "MomentMatching/UnscentedTransform.py:UnscentedTransform._sigma_points"]}
{"id": "C42", "title": "Estimator projections at power 1 agree with the Kalman filter", "statement": "With power = 1, Estimator.proj_trans and proj_back return the same Gaussian as KalmanFilterSmoother.predict and smooth for symmetric transform output, and proj_meas the same mean and covariance as correct for scalar states; when the predicted covariance is not positive definite predict goes on and proj_trans raises LinAlgError; every state returned by proj_trans passes validate_covariance. For other powers proj_trans divides the predicted covariance by the power, proj_meas divides the measurement noise by it, and proj_back divides the noise by it and aims at the product of the prediction and the power of the next node's cavity.", "quantifier": "every transform, state, noise", "why_tests_cant": "Universal over transforms and matrices.", "anchors": ["MomentMatching/Estimator.py:Estimator.proj_trans", "MomentMatching/Estimator.py:Estimator.proj_meas", "MomentMatching/Estimator.py:Estimator.proj_back"]}
{"id": "C43", "title": "EP is converged after one pass when the measurement function is affine (scalar states)", "statement": "For scalar systems with an affine measurement function and any transition function, power = damping = 1 and transforms as in C40, after one pass every further sequence of node updates, in particular every further pass, returns normally and leaves all nodes exactly as they are.", "quantifier": "every chain length, number of passes, order of updates, transition functions, coefficients and measurements", "why_tests_cant": "Induction over chain length and passes.", "anchors": ["ExpectationPropagation/Iterations.py:ep_fwd_back_updates", "ExpectationPropagation/Nodes.py:Node"]}
{"id": "C44", "title": "Node.copy shares the original's updates", "statement": "node.copy() on an equipped node is a shallow copy: its marginal and factors start equal, but calling fwd_update/meas_update/back_update on the copy updates the original node and leaves the copy unchanged. Running node_estimator on the copy again does not detach it: the updates stay bound to the original.", "quantifier": "every equipped node and update", "why_tests_cant": "Aliasing over call histories.", "anchors": ["ExpectationPropagation/Nodes.py:Node.copy", "ExpectationPropagation/Nodes.py:node_estimator"]}
{"id": "C45", "title": "ep_iterations logs one row per iteration", "statement": "ep_iterations with x_true given performs max_iter passes and offers exactly max_iter rows with Iter = start+1..start+max_iter, the i-th carrying the metrics after i passes, values in column order; each is committed before the next pass. With x_true None nothing is written.", "quantifier": "every max_iter and node graph", "why_tests_cant": "All iteration counts.", "anchors": ["ExpectationPropagation/Iterations.py:ep_iterations", "Utils/Database.py:insert_experiment_data"]}
{"id": "C46", "title": "Result tables are keyed, first write wins", "statement": "After any sequence of inserts the experiment table never holds two rows with the same (Transform, Seed, Iter, Power, Damping) and each key keeps the values of its first insert; inserting again is a no-op. The same holds for simulated data with key (Seed, t).", "quantifier": "every sequence of inserts", "why_tests_cant": "Unbounded insert histories.", "anchors": ["Utils/Database.py:insert_experiment_data", "Utils/Database.py:insert_dynamics_data", "Utils/Database.py:create_experiment_table"]}
{"id": "C47", "title": "override does not override", "statement": "A user passing override=True expects stored results to be replaced. full_sweep recomputes every setting but, since rows are inserted with INSERT OR IGNORE, every row already stored keeps its values and place, whatever is computed and however the run ends; the table only grows.", "quantifier": "every database content and sweep configuration", "why_tests_cant": "Depends on database history.", "anchors": ["Experiments/EP_FullSweep.py:full_sweep", "Utils/Database.py:experiment_data_string"]}
{"id": "C48", "title": "Crash safety of a sweep", "statement": "If the process dies at any point of ep_iterations, the committed table holds the rows that were there before plus rows for a prefix of the iterations. If what a setting computes depends only on the seed and the setting, and num_iter <= 50 or override is given, then running the whole sweep again after a crash at any point completes both tables to exactly what an uninterrupted run would have stored. With num_iter > 50 this fails: a run that dies after its 50th row is skipped for ever and its later rows are never stored.", "quantifier": "every crash point, every prior table, every configuration list", "why_tests_cant": "All crash points.", "anchors": ["ExpectationPropagation/Iterations.py:ep_iterations", "Experiments/EP_FullSweep.py:full_sweep"]}
{"id": "C49", "title": "Simulated data is only durable with a later commit", "statement": "Rows written by insert_dynamics_data are committed only by the next ep_iterations commit: if every configuration of a sweep is skipped or fails before its first iteration completes, the dynamics rows of that run are lost when the connection closes.", "quantifier": "every sweep configuration and failure pattern", "why_tests_cant": "Depends on the pattern of skips and failures.", "anchors": ["Experiments/EP_FullSweep.py:full_sweep", "Utils/Database.py:insert_dynamics_data"]}
{"id": "C50", "title": "Sweeps skip exactly the configurations with a stored 50th iteration", "statement": "Without override full_sweep runs a setting iff no row with that Transform, Seed, Power, Damping and Iter = 50 is stored (with override it always runs it); with num_iter < 50 no row that a sweep writes ever makes a later sweep skip.", "quantifier": "every table content, configuration list and num_iter", "why_tests_cant": "Depends on history and configuration.", "anchors": ["Experiments/EP_FullSweep.py:full_sweep", "Experiments/EP_FullSweep.py:query_str"]}
{"id": "C51", "title": "Simulation follows the state-space recursion", "statement": "simulate(N, x0, t0) returns N pairs with x_k = f(x_{k-1}, t0 + (k-1) dt) + w_k and y_k = h(x_k) + v_k, provided f and h return new arrays, and succeeds exactly when every step of that recursion does. If f returns its argument object all returned states are the same object and show the final value; if h returns its argument the measurement noise is added to the state as well.", "quantifier": "every N, noise sequence, function", "why_tests_cant": "Aliasing depends on the functions supplied; all N.", "anchors": ["Systems/DynamicSystem.py:DynamicSystemModel._simulate", "Systems/DynamicSystem.py:DynamicSystemModel.simulate"]}
{"id": "C52", "title": "GaussianNoise ignores a supplied mean", "statement": "GaussianNoise(dimension, cov) has zero mean of the given dimension; if a mean is passed, no mean is stored and sampling raises AttributeError. With dimension n >= 2 and default cov, sampling raises ValueError and adding the noise covariance to an n x n covariance adds 1 to every entry.", "quantifier": "every dimension and mean", "why_tests_cant": "All dimensions.", "anchors": ["Systems/DynamicSystem.py:GaussianNoise"]}
{"id": "C53", "title": "Lorenz-96 drift", "statement": "The drift is (x_{j-1} - x_{j+2}) x_{j+1} - x_j + F with cyclic indices, row by row. It is equivariant under cyclic shifts, has the constant state F as an equilibrium, and its quadratic part conserves energy; it is the mirror image (index reversal) of the README's formula and differs from it in every dimension >= 4. The Runge-Kutta step inherits shift equivariance and the equilibrium.", "quantifier": "every dimension, state and forcing", "why_tests_cant": "All dimensions and states.", "anchors": ["Systems/L96.py:model"]}
{"id": "C54", "title": "L96 cannot be constructed from a generated initial condition", "statement": "Whenever the initial condition is generated (no file), it has shape (1, dim), so the constructor's dimension assertion fails for every dim >= 2; with a stored vector of length dim construction succeeds.", "quantifier": "every dim, F", "why_tests_cant": "All dims.", "anchors": ["Systems/L96.py:generate_L96_initial_condition", "Systems/L96.py:L96.__init__"]}
{"id": "C55", "title": "Turning target dynamics", "statement": "For nonzero turn rate, the bearings-only turning model preserves speed, turn rate and the centre of the circle, solves the coordinated-turn differential equations, is a flow in the time step (two steps of a and b equal one of a+b), treats the rows of a batch independently, and is affine-linear in position and velocity for fixed turn rate.", "quantifier": "every state with nonzero turn rate and all time steps", "why_tests_cant": "Universal over reals.", "anchors": ["Systems/BearingOnlyTrackingTurn.py:f"]}
{"id": "C56", "title": "Constant velocity dynamics and noise", "statement": "The constant velocity model moves position by dt times velocity and is a flow in the time step; its process noise covariance is consistent (noise of a+b = propagated noise of a plus noise of b) and positive definite for every positive time step and intensity; the turning model's noise is positive definite too. The parameter R_sigma is the variance of a bearing in the constant velocity model but its standard deviation in the turning model.", "quantifier": "all time steps and intensities", "why_tests_cant": "Universal over reals.", "anchors": ["Systems/BearingsOnlyTracking.py:f", "Systems/BearingsOnlyTracking.py:BearingsOnlyTracking", "Systems/BearingOnlyTrackingTurn.py:BearingsOnlyTrackingTurn"]}
{"id": "C57", "title": "Growth model bounds and sign ambiguity", "statement": "The UNGM transition is x/2 + 25x/(1+x^2) + 8cos(1.2 t) elementwise and satisfies |f(x,t)| <= |x|/2 + 20.5, so every noise-free trajectory obeys |x_k| <= |x_0|/2^k + 41; its measurement cannot tell x from -x; calling it without a time raises TypeError.", "quantifier": "every x, t and trajectory length", "why_tests_cant": "Universal over reals and lengths.", "anchors": ["Systems/UniformNonlinearGrowthModel.py:f", "Systems/UniformNonlinearGrowthModel.py:h"]}
{"id": "C58", "title": "rmse", "statement": "rmse of states and truths is the root of the mean squared Euclidean distance over the first min(len) pairs; it is 0 iff all compared means equal the truth, and permuting the pairs does not change it. A truth given as an (n,1) column is broadcast against the (n,) mean, so the distance is summed over all n*n pairs of components.", "quantifier": "every pair of nonempty lists", "why_tests_cant": "All lengths.", "anchors": ["Utils/Metrics.py:rmse", "StateModel/Gaussian.py:Gaussian.squared_error"]}
{"id": "C59", "title": "select_transform is total and case-insensitive", "statement": "select_transform depends on its id only up to letter case, returns a pair of transforms of the requested dimension for every string and falls back to the unscented transform for unknown ids.", "quantifier": "every string", "why_tests_cant": "All strings.", "anchors": ["Experiments/EP_FullSweep.py:select_transform"]}
{"id": "C60", "title": "Component metrics of the turning target", "statement": "The bearings-only sweep's metrics evaluate exactly the position components 0,2, velocity components 1,3 and turn rate component 4 of each marginal, mean and covariance block alike; squared position, velocity and turn-rate errors add up to the full squared error.", "quantifier": "every list of marginals and truths", "why_tests_cant": "All lists.", "anchors": ["Experiments/EP_Sweep_BearingsOnly.py:node_metrics", "Experiments/IEKS_Sweep_BearingsOnly.py:componentwise_metrics"]}
{"id": "C61", "title": "EKF with a single row output fails", "statement": "For states with more than one component and a measurement function returning an array of shape (1,1) (a single bearing sensor), KalmanFilterSmoother.correct with the Taylor transform raises ValueError for every measurement, because the transform drops an axis of the cross covariance. In particular the tracking model with one sensor cannot be filtered by the EKF.", "quantifier": "every Gaussian state, differentiable single-output row function, noise covariance, measurement", "why_tests_cant": "Holds for all states and functions.", "anchors": ["MomentMatching/TaylorLinearisation.py:TaylorTransform._transform", "Filters/KalmanFilter.py:KalmanFilterSmoother.correct"]}
{"id": "C62", "title": "Bearings determine the position", "statement": "With the default sensors of the tracking and the turning model, two states have the same noise-free measurement iff they have the same position. In general two sensors suffice for any position off the line through them, while one sensor never reveals the distance. All bearings lie in (-pi, pi]; batches are measured row by row. Without sensors every state gives the empty measurement and nothing is raised.", "quantifier": "every state, every sensor list", "why_tests_cant": "Injectivity over the plane.", "anchors": ["Systems/BearingsOnlyTracking.py", "Systems/BearingOnlyTrackingTurn.py"]}
{"id": "C63", "title": "Bearings jump behind a sensor", "statement": "For every sensor and every d > 0 there are two states within d of each other whose bearings differ by more than 2*pi - d; correct and proj_meas subtract bearings without wrapping the difference. Hence a whole turn added to one bearing, which names the same direction, moves the corrected mean of the Kalman filter by 2*pi times the gain of that bearing, for every transform, and leaves the covariance as it is. For the extended Kalman filter with two or more sensors and equal independent noise the two corrected means always differ, whatever the state and the data.", "quantifier": "every sensor, every distance; every number of sensors, all states off the half lines behind the sensors, all data", "why_tests_cant": "Statement about arbitrarily small distances.", "anchors": ["Systems/BearingsOnlyTracking.py", "Filters/KalmanFilter.py:KalmanFilterSmoother.correct"]}
{"id": "C64", "title": "Negative log likelihood metric", "statement": "For a Gaussian with positive definite covariance whose eigenvalues do not differ by more than scipy's cutoff, nll(x) = (n log 2pi + log det C + (x-m)^T C^-1 (x-m))/2; exp(-nll) integrates to one over the whole space and is the normal density for n = 1; nll is smallest exactly at the mean. The list version is the average over the first min(len) pairs. With numbers as mean, covariance c > 0 and point it is (log 2pi + log c + (x-m)^2/c)/2.", "quantifier": "every dimension, mean, positive definite covariance, point", "why_tests_cant": "Quantifies over all covariances; the integral is over all of R^n.", "anchors": ["Utils/Metrics.py:nll", "StateModel/Gaussian.py:Gaussian.nll"]}
{"id": "C65", "title": "The default EP sweep (growth model, transforms TT, UT, MCT) aborts", "statement": "A user expects the Taylor ('TT') transform to work in expectation propagation. On a scalar state with differentiable elementwise functions, every power > 0 and damping >= 0, the first EP pass with Taylor transforms raises ValueError: the mean left by meas_update has shape (1,1), its Jacobian is squeezed to a scalar, and @ rejects scalars. The handler in power_sweep only catches LinAlgError, so the default run of EP_FullSweep (first setting 'TT') dies in its first setting, unless a result for that setting is stored, and the simulated data it inserted are not on disk afterwards.", "quantifier": "every scalar system, measurement list, chain length >= 2, power, damping, seed list, database content", "why_tests_cant": "Universal over systems, data and parameters; the repository's tests never run EP with the Taylor transform.", "anchors": ["MomentMatching/TaylorLinearisation.py:TaylorTransform", "MomentMatching/Estimator.py:Estimator.proj_meas", "Experiments/EP_FullSweep.py:power_sweep", "Experiments/EP_FullSweep.py:full_sweep"]}
{"id": "C66", "title": "EP with the unscented transform never fails on scalar states", "statement": "For a scalar system with positive noise and prior variance, transforms as in C40, any power > 0 and any damping, every sequence of node updates after build_nodes, hence any number of EP passes, returns normally: no LinAlgError, no update silently discarded; all marginal variances stay in (0, 1e10], and marginals and factors are those of the power-EP recursion in plain numbers. In particular for UniformNonlinearGrowthModel with the unscented transforms of the experiments.", "quantifier": "every scalar system, measurement list, chain length >= 2, power > 0, damping, sequence of updates", "why_tests_cant": "Universal over nonlinear functions, data, powers, dampings and unboundedly many updates; tests run finitely many passes on sampled data.", "anchors": ["ExpectationPropagation/Nodes.py:Node.fwd_update", "ExpectationPropagation/Nodes.py:Node.meas_update", "ExpectationPropagation/Nodes.py:Node.back_update", "MomentMatching/Estimator.py:Estimator", "MomentMatching/UnscentedTransform.py:UnscentedTransform"]}
{"id": "C67", "title": "Filter and smoother return the exact posterior marginals on linear Gaussian systems", "statement": "On a linear Gaussian system (affine transition and measurement, which may change with time; positive definite noise and prior covariances) with a transform that is exact for affine functions, kalman_filter succeeds and its i-th result is the distribution of the i-th state given measurements 0..i; kalman_smoother, run on these results with t_zero = 0, succeeds and its i-th result is the distribution of that state given all measurements. The posterior is meant in the textbook sense: the joint density of the whole trajectory and the measurements, integrated over all other states and divided by its total integral.", "quantifier": "every dimension, affine system, prior, time step, measurement list of any length", "why_tests_cant": "Compares the recursions with integrals over trajectories of unbounded length, for all systems and data.", "anchors": ["Filters/KalmanFilter.py:KalmanFilterSmoother.kalman_filter", "Filters/KalmanFilter.py:KalmanFilterSmoother.kalman_smoother"]}
{"id": "C68", "title": "Accuracy of the unscented transform on polynomials", "statement": "For every dimension and all parameters with alpha^2 (n + kappa) > 0, the mean returned by UnscentedTransform for a function whose outputs are polynomials of degree at most 3 is the exact expectation under the Gaussian state, and for degree at most 2 so is the cross-covariance of state and output. The returned covariance is not exact already for one-dimensional quadratics: it exceeds the true variance by exactly (alpha^2 kappa + beta - 2) M^2 p^2, with M the second-order coefficient and p the state variance. Hence with the experiments' parameters (alpha=1, beta=2, kappa=2) the measurement x^2/20 of the growth model gets the variance m^2 p/100 + p^2/100 instead of m^2 p/100 + p^2/200. In n dimensions, for quadratics with gradients g_a and Hessians H_a at the mean, the true covariance is g_a' P g_b + tr(H_a P H_b P)/2, while the transform returns g_a' P g_b + (alpha^2 (n+kappa) sum_r (L_r H_a L_r')(L_r H_b L_r') + (beta - alpha^2) tr(H_a P) tr(H_b P))/4 with the rows L_r of the Cholesky factor. So for independent components the variance of a product x_i x_j lacks the term p_i p_j for all parameters, and the squared measurements of the Lorenz experiment (alpha=1, beta=2, kappa=2) get the variance 4 m^2 p + (n+3) p^2 instead of 4 m^2 p + 2 p^2 and covariances p_a p_b instead of 0.", "quantifier": "every dimension, state with positive definite covariance, polynomial, parameters", "why_tests_cant": "Compares with integrals under the normal distribution, for all polynomials and states.", "anchors": ["MomentMatching/UnscentedTransform.py:UnscentedTransform._transform", "MomentMatching/UnscentedTransform.py:UnscentedTransform._weights", "Systems/UniformNonlinearGrowthModel.py:h", "Experiments/EP_FullSweep.py:select_transform"]}
{"id": "C69", "title": "The Monte Carlo transform is consistent and unbiased", "statement": "If np.random.multivariate_normal delivers independent draws with the distribution of the state, and the outputs of the function are square integrable, then MonteCarloTransform succeeds for every number of samples N >= 2, the expectation of each returned mean, covariance and cross-covariance entry over the draws is the true one (for every N >= 2), and as N grows the returned mean, covariance and cross-covariance converge almost surely to the true mean, covariance and cross-covariance of the transformed state. (state and output together need more than one component: see C18.) For the growth model's measurement x^2/20 the variance converges to m^2 p/100 + p^2/200. The mean squared error of a component of the mean is exactly the true variance of that component divided by N, so the error is at least eps with probability at most variance / (N eps^2).", "quantifier": "every dimension, state, square integrable function, generator of independent draws", "why_tests_cant": "Almost sure convergence and expectations over the random generator; no finite run shows them.", "anchors": ["MomentMatching/MonteCarloTransform.py:MonteCarloTransform._transform", "MomentMatching/MonteCarloTransform.py:MonteCarloTransform.sample_covariance", "StateModel/Gaussian.py:Gaussian.sample"]}
{"id": "C70", "title": "Power EP on scalar affine systems does not depend on the power", "statement": "For scalar states, damping = 1 and transforms as in C40: if the measurement function is affine, the forward sweep (ep_filter) from build_nodes leaves on every node the same mean and variance for every power > 0, namely those of the filter of C40, whatever the transition functions are. If the transition functions are affine too, and (for powers below 1) no prediction is so vague that it falls under the 1e-10 threshold of the precision, the first full pass leaves for every power the mean and variance of the smoother of C40, so estimators that differ only in the power agree on all nodes; and for powers <= 1 every further sequence of updates, in particular every further pass, leaves all nodes exactly as they are.", "quantifier": "every chain length, power > 0, transition functions (affine ones for the full pass), coefficients, noise, measurement list, order of further updates", "why_tests_cant": "A continuum of powers and an induction over the chain; runs compare a few powers up to tolerance.", "anchors": ["MomentMatching/Estimator.py:Estimator.proj_trans", "MomentMatching/Estimator.py:Estimator.proj_meas", "MomentMatching/Estimator.py:Estimator.proj_back", "ExpectationPropagation/Nodes.py:Node.fwd_update", "ExpectationPropagation/Nodes.py:Node.meas_update", "ExpectationPropagation/Nodes.py:Node.back_update", "ExpectationPropagation/Iterations.py:ep_fwd_back_updates"]}
{"id": "C71", "title": "The unscented sweep of the growth model completes, and what its table holds", "statement": "Experiments/EP_FullSweep on the growth model (UNGM) with trans_types=['UT'], any positive powers, any dampings, any seeds (with simulated states and measurements of shape (1,), at least two time steps, and scipy reporting no 1x1 matrix as ill-conditioned) never raises and never skips an iteration, whatever numbers were simulated and whatever the database file held. No stored row is changed or lost. For every (seed, power, damping) of which the file had no row, it afterwards holds, committed, one row for each Iter = 1..num_iter, and RMSE and NLL of that row are the root mean square error and the mean negative log Gaussian density of the marginals after exactly Iter passes. Nothing else is stored, and no key twice if none was. For power = damping = 1 the row Iter = 1, which DisplayResults.py reports as 'Kalman Smoother', holds the scores of the unscented smoother (predictions multiplied by the initial marginal of precision 1e-10).", "quantifier": "every list of seeds, positive powers, dampings, number of iterations and time steps >= 2, all simulated data, all previous contents of the database, override flag", "why_tests_cant": "Termination without error over all measurement sequences, power/damping values and iteration counts, and exact contents of the table; runs sample a few seeds and take hours.", "anchors": ["Experiments/EP_FullSweep.py:full_sweep", "Experiments/EP_FullSweep.py:power_sweep", "Experiments/EP_FullSweep.py:select_transform", "ExpectationPropagation/Iterations.py:ep_iterations", "Utils/Metrics.py:node_metrics", "Utils/Database.py:insert_experiment_data", "Experiments/DisplayResults.py"]}
{"id": "C72", "title": "Squared measurements carry no information about a state with mean zero", "statement": "The measurement functions of the Lorenz model and of the growth model give equal values exactly for states whose components agree up to sign. If a measurement function is even about the mean of the state, the unscented transform (any parameters with alpha^2 (n + kappa) > 0) returns a cross covariance of exactly zero. Hence KalmanFilterSmoother.correct with the unscented transform (nonnegative covariance weights) or with the Taylor transform returns mean and covariance of the prediction unchanged for every measurement, whatever its value; in particular on the growth model and on the Lorenz model (in two or more dimensions for Taylor) from every prediction with mean zero.", "quantifier": "every dimension, covariance, transform parameters in range, positive definite noise covariance, measurement value, even measurement function (differentiable at the mean for Taylor)", "why_tests_cant": "Exact equality for a continuum of covariances, measurements and parameters; a test shows one prediction that happens not to move.", "anchors": ["Systems/L96.py:h", "Systems/UniformNonlinearGrowthModel.py:h", "MomentMatching/UnscentedTransform.py:UnscentedTransform._transform", "MomentMatching/TaylorLinearisation.py:TaylorTransform._transform", "Filters/KalmanFilter.py:KalmanFilterSmoother.correct"]}
{"id": "C73", "title": "The test system cannot be filtered without a control", "statement": "The transition of TestDynamics does not distinguish states that differ by a multiple of 10; each unit of time moves its result by 0.1 and each unit of control by 0.01, and the result lies in [0.1 t + 0.01 u, 10 + 0.1 t + 0.01 u). KalmanFilterSmoother.kalman_filter passes u=None on unless told otherwise, so on this system it raises TypeError for every nonempty list of measurements (unscented transform). With a control, predict returns the unscented mean and variance of x % 10 + 0.1 t + 0.01 u, with no noise added. With the unscented transform for the measurement, which is one hundred times the state without noise, the corrected state is the measurement divided by one hundred with variance zero, whatever the state before with positive variance; correcting a state with variance zero reports the variance -1e-10.", "quantifier": "every state, time, control, measurement list, prior with positive variance, transform parameters with alpha^2 (1 + kappa) > 0", "why_tests_cant": "Statements about all states and all measurement lists; the tests of the repository use the system only to build nodes.", "anchors": ["Systems/TestDynamics.py:f", "Systems/TestDynamics.py:TestDynamics", "Filters/KalmanFilter.py:KalmanFilterSmoother.predict", "Filters/KalmanFilter.py:KalmanFilterSmoother.kalman_filter"]}
{"id": "C74", "title": "EP sweeps of multi-dimensional systems with the unscented transform abort", "statement": "A user expects power_sweep / full_sweep to store results for any system. For every system of dimension >= 2 with functions acting row by row, positive definite Q, R and prior, at least two measurements, scipy reporting no matrix as ill-conditioned, every seed, power > 0, damping >= 0 and every transform identifier other than TT and MCT, power_sweep raises ValueError and writes nothing; a sweep whose first setting is of this kind dies with ValueError unless a result for that setting is stored, and leaves the file as after creating the tables (simulated data lost). In particular for Lorenz 96 with a stored initial condition in every dimension >= 2 and for constant velocity tracking with any nonempty sensor list.", "quantifier": "every system, dimension, seed list, transform list, power, damping, database content", "why_tests_cant": "Universal over systems, dimensions, data and parameters; the repository has no test that runs a sweep.", "anchors": ["Experiments/EP_FullSweep.py:power_sweep", "Experiments/EP_FullSweep.py:full_sweep", "MomentMatching/Estimator.py:Estimator.proj_meas", "Systems/L96.py:L96", "Systems/BearingsOnlyTracking.py:BearingsOnlyTracking"]}
{"id": "C75", "title": "Kalman filter and smoother complete on nonlinear systems, and smoothing never increases uncertainty", "statement": "For every system with positive definite Q, R and prior whose functions are handled by a transform that replaces them by a linear function plus noise (the Taylor transform with the correct Jacobian on differentiable functions; the unscented transform with nonnegative central covariance weight on any functions acting row by row), kalman_filter returns exactly one state per measurement and kalman_smoother one state per filtered state, none of them raising, and every returned covariance is a symmetric positive definite matrix. With filtering started at t_zero = 0 every smoothed covariance is at most the filtered one in the positive semidefinite order. In particular for the growth model (Taylor), Lorenz 96 with a stored initial condition (unscented with alpha=1, beta=2, kappa>0, any dimension) and constant velocity tracking with any nonempty sensor list (same parameters).", "quantifier": "every system function, dimension, measurement list of the right shape, prior, start time, unscented parameters with nonnegative weight", "why_tests_cant": "Universal over nonlinear functions, dimensions and data sequences of any length; positive definiteness is an invariant along the whole run.", "anchors": ["Filters/KalmanFilter.py:KalmanFilterSmoother.kalman_filter", "Filters/KalmanFilter.py:KalmanFilterSmoother.kalman_smoother", "MomentMatching/UnscentedTransform.py:UnscentedTransform._transform", "MomentMatching/TaylorLinearisation.py:TaylorTransform._transform"]}
{"id": "C76", "title": "Iterated filters complete for any number of iterations and calls", "statement": "With the Taylor transform, the correct Jacobian, positive definite Q, R and prior: on a system whose functions are differentiable in the state and return vectors (or (1, k) rows in dimensions other than one), every sequence of calls of one IEKS object with nonempty measurement lists, whatever the numbers of iterations and whatever lists of linearised functions earlier calls left behind, returns without raising one state with positive definite covariance per measurement; every IEKF call on such a system with row measurements does too. In particular IEKS on the growth model and IEKS and IEKF on Lorenz 96 with a stored initial condition in every dimension >= 2.", "quantifier": "every differentiable system, dimension, sequence of calls, number of iterations, measurement list", "why_tests_cant": "Universal over functions, number of iterations and histories of the mutable object (the lists of lambdas survive between calls).", "anchors": ["Filters/KalmanFilter.py:IEKS.__call__", "Filters/KalmanFilter.py:IEKF.__call__"]}
{"id": "C77", "title": "EP with Monte Carlo transforms raises or ignores the data", "statement": "A user expects Monte Carlo EP to use every measurement. For every system whose functions act row by row, with positive definite Q, R and prior, at least two measurements, scipy reporting no matrix as ill-conditioned, every number of samples >= 2 and whatever numbers are drawn: the first measurement update of a node (power > 0, damping >= 0) is accepted exactly when P^-1 - C (S + R/power)^-1 C^T, made of the sample covariances, is positive definite, and is otherwise skipped leaving the node as it was; the first EP pass over nodes from build_nodes either raises ValueError or leaves the measurement factor of every node but the last uniform, so that no measurement but the last has been used. Hence power_sweep with identifier MCT (any case) raises and stores nothing, or its first pass ignored all data but the last measurement; in particular for the growth model and for Lorenz 96 in every dimension >= 1.", "quantifier": "every dimension, system, drawn sample, number of samples, number of nodes, measurement list, power and damping", "why_tests_cant": "The outcome is random: a test sees the samples of one seed, the claim is about every sample.", "anchors": ["MomentMatching/MonteCarloTransform.py:MonteCarloTransform._transform", "MomentMatching/Estimator.py:Estimator.proj_meas", "ExpectationPropagation/Nodes.py:Node.meas_update", "Experiments/EP_FullSweep.py:power_sweep"]}
{"id": "C78", "title": "Simulated data of the library's systems follow the stated recursion", "statement": "For every sequence of drawn numbers and every number of steps N, simulating one of the library's systems returns N pairs of arrays holding points: the states follow x_0 = w_0, x_{i+1} = f(x_i, i dt) + w_{2i+1}, each paired with h(x_{i+1}) + w_{2i+2}, where w_j is the j-th draw of numpy's multivariate normal: w_0 with mean and covariance of the system's initial state, the odd draws with mean zero and the system's process covariance, the even ones with mean zero and its measurement covariance. The arrays have shape (1,) for the growth model and shape (1, n) (rows, though the first state is a vector) for the other systems. This holds unconditionally for the growth model, for Lorenz 96 with a stored initial condition in every dimension, for constant velocity tracking with any nonempty list of sensors, and for coordinated turns as long as the turn rate never is zero. Consequently every EP sweep over simulated Lorenz 96 (dimension >= 2) or tracking data whose first setting is unscented with power > 0, damping >= 0 and no stored result raises ValueError and stores no experiment, for all seeds (scipy reporting no matrix as ill-conditioned). The mean of the initial state may be stored as a vector, a row or a column without any effect on the simulation.", "quantifier": "every sequence of drawn numbers, number of steps, dimension, sensor list and parameters", "why_tests_cant": "A test fixes a seed; the claim is about every realisation, and about in-place addition to arrays that are shared between the lists.", "anchors": ["Systems/DynamicSystem.py:DynamicSystemModel.simulate", "Systems/UniformNonlinearGrowthModel.py", "Systems/L96.py", "Systems/BearingsOnlyTracking.py", "Systems/BearingOnlyTrackingTurn.py", "Experiments/EP_FullSweep.py:main"]}
{"id": "C79", "title": "The sweeps of the iterated smoother store complete rows per job and can be restarted", "statement": "Each IEKS_Sweep script processes its jobs in order. For every outcome of the jobs: if the first failing job raises e, the script raises e and the table holds the previous rows plus the rows of all jobs before it, where a row whose UNIQUE columns equal those of a stored row is dropped; other tables are untouched; at every moment the file holds the rows of the first i jobs for some i, never part of the rows of a job. If all jobs succeed, a run started from the file left by any interrupted run ends with the table of an uninterrupted run, so a second run changes nothing. With correct Jacobians the growth model script completes for every generator, seed list, iteration count and N >= 2, storing per seed the root mean square error and the mean negative log density of the iterated smoother's estimates against the simulated states; with N = 1 it raises TypeError, with N = 0 ValueError. The Lorenz 96 script raises AssertionError and stores no row when there is no stored initial condition for its first dimension (>= 2) or one that was saved by an earlier run; with stored vectors it computes estimates for every job and can stop only because scipy takes a covariance for singular. The true states are handed to the metrics one by one when there are at least two; a single vector state is taken apart into its components. The turn script stores three rows per seed or none.", "quantifier": "every list of jobs and outcomes, initial database content, moment of interruption, generator, seed list, number of steps and iterations", "why_tests_cant": "Interruptions can happen after any statement and the numbers depend on all draws; a test sees one run of one seed.", "anchors": ["Experiments/IEKS_Sweep_UNGM.py", "Experiments/IEKS_Sweep_L96.py", "Experiments/IEKS_Sweep_BearingsOnly.py", "Filters/KalmanFilter.py:IEKS.__call__", "Utils/Metrics.py:rmse", "Systems/L96.py:L96.__init__"]}
{"id": "C80", "title": "The EP sweep over Lorenz 96 cannot be restarted, and its first iterations ignore the measurements", "statement": "A run of Experiments/EP_Sweep_L96.py adds rows to its table in a fixed order of keys, one transaction per row, never repeating a key; if it raises, the table holds the old rows and the first few of the new ones, and it returns only if all were added. Once any run has stored a row, every later run with the same first dimension, seed, power and damping raises and stores nothing, whatever is drawn and simulated: unlike the other sweeps an interrupted run cannot be continued. Without a stored initial condition of the first dimension (>= 2), or with the one a failed run has saved, the script raises AssertionError and stores no row. With a stored vector, in every dimension >= 2, scipy reporting no matrix as ill-conditioned, and for any two sequences of measurements, either the setting raises for both before storing anything, or its first iteration stores the same row for both: the scores of the first iteration never depend on the measurements. The table has the columns Transform, Seed, dim, Iter, Power, Damping, RMSE, NLL, the first six together unique, and a new row holds its transform, seed, dimension, iteration number, power and damping in that order.", "quantifier": "every initial database content, list of dimensions, seeds and settings, drawn numbers, moment of interruption, pair of measurement sequences, power > 0, damping >= 0", "why_tests_cant": "It compares runs that can stop at any statement and quantifies over all drawn numbers and all pairs of measurement sequences.", "anchors": ["Experiments/EP_Sweep_L96.py", "ExpectationPropagation/Nodes.py:Node.meas_update", "MomentMatching/MonteCarloTransform.py:MonteCarloTransform._transform", "Systems/L96.py:L96.__init__", "Utils/Metrics.py:node_metrics"]}
{"id": "C81", "title": "Damped power EP converges to the Gaussian smoother on affine scalar systems", "statement": "For a scalar state with affine transition and measurement functions, power strictly between 0 and 1 and damping in (0, 1], every number of ep_fwd_back_updates passes over freshly built nodes succeeds, and mean and variance of every node converge, as the number of passes grows, to those of the Gaussian smoother (with a factor of precision 1e-10 at every prediction): the limit depends neither on the power nor on the damping. With arbitrary continuous transitions the last node still converges to the filter. After k passes the measurement factor of every node has exactly the precision and shift of the likelihood times power * (1 - (1 - damping)^k).", "quantifier": "every number of nodes and passes, every measurement, prior, noise variance, affine function, moment matching rule exact on them, power in (0,1), damping in (0,1]; for the smoother limit, predictions above the 1e-10 threshold (implied by A^2 r / h^2 + q / power <= 1e10)", "why_tests_cant": "It is a statement about a limit over all numbers of passes and all parameters; a test sees finitely many passes of one system.", "anchors": ["ExpectationPropagation/Iterations.py:ep_fwd_back_updates", "ExpectationPropagation/Nodes.py:Node.power_update", "ExpectationPropagation/Nodes.py:Node.back_update", "MomentMatching/Estimator.py:Estimator.proj_back", "StateModel/Gaussian.py:GaussianState"]}
{"id": "C82", "title": "With damping below one, power exactly one behaves differently from powers near one", "statement": "On an affine scalar system (last transition not constant) with damping in (0, 1): after the first ep_fwd_back_updates pass the variance of the last node but one is one and the same number w for every power p < 1 with (1-p)(A^2 + q/(p 1e10)) <= 1, but for power 1 it is strictly larger. The reason is that proj_back aims at the marginal of the next node when power == 1, which contains only a damped part of the prediction. At power one the backward sweep can even lose information: if 1e-10 + damping * h^2/r is less than 1 - damping times the precision of the last prediction, the variance of the last node but one is larger after the pass than after its forward sweep alone.", "quantifier": "every number of nodes, affine system, measurements, prior, noise variances, damping in (0,1), every power below one meeting the stated bound", "why_tests_cant": "It compares a continuum of powers; any single run of the estimator looks plausible.", "anchors": ["ExpectationPropagation/Iterations.py:ep_fwd_back_updates", "ExpectationPropagation/Nodes.py:Node.power_update", "ExpectationPropagation/Nodes.py:Node.back_update", "MomentMatching/Estimator.py:Estimator.proj_back", "StateModel/Gaussian.py:GaussianState"]}
{"id": "C83", "title": "Where the iterated smoother converges to", "statement": "If the means returned by IEKS converge as num_iter grows (or one more iteration leaves them unchanged), the limit, completed by some initial state, is a stationary point of the trajectory posterior density in which every transition function is replaced by its tangent at the state it leads to. So for affine transitions and arbitrary differentiable measurement functions, in particular for constant velocity tracking with at least two bearing sensors away from the discontinuity, the limit is a stationary point of the exact posterior density (a candidate for the MAP trajectory). For nonlinear transitions it is not: with f(x) = x^2, h(x) = x, unit noises, prior mean 2 and measurement 4 the most probable trajectory is (2, 4), while the means of IEKS converge to a limit below 4 that is the last state of no stationary trajectory at all.", "quantifier": "every number of measurements, dimension, prior, positive definite noises, transition and measurement functions continuously differentiable at the limit, measurement sequence, prior state of the IEKS object", "why_tests_cant": "It speaks about limits of the iteration and about a density over all trajectories, for every model; a test compares a few iterates of one model.", "anchors": ["Filters/KalmanFilter.py:IEKS.__call__", "Filters/KalmanFilter.py:IEKS._kalman_filter", "Filters/KalmanFilter.py:IEKS._kalman_smoother", "Systems/BearingsOnlyTracking.py:BearingsOnlyTracking"]}
{"id": "C84", "title": "What the estimates of a linear system depend on, and how the prior is forgotten", "statement": "On a linear Gaussian system with positive definite covariances: the covariances reported by the filter and the smoother depend neither on the measurements nor on the prior mean, and the means are affine in prior mean and measurements together (superposition). Two filter runs on the same measurements from different prior means never differ, in any direction, by more reported standard deviations than at any earlier time. If the matrices do not depend on time and some observer with constant gain has bounded error, the difference of the estimates tends to zero at a geometric rate, whatever the measurements and prior means are; for two priors with different means and covariances the same holds for means and covariances if the measurements are bounded. Without the condition it fails: if nothing is measured, the difference is the transition matrix power applied to the difference of the prior means.", "quantifier": "every dimension, affine system (time dependent maps for the first two claims), positive definite noises and priors, number of measurements, measurement values, transform that is exact on affine functions", "why_tests_cant": "It compares pairs of runs for all measurement sequences of all lengths and gives a rate that holds for arbitrarily long runs; a test sees finitely many runs of finite length.", "anchors": ["Filters/KalmanFilter.py:KalmanFilterSmoother.kalman_filter", "Filters/KalmanFilter.py:KalmanFilterSmoother.kalman_smoother", "Filters/KalmanFilter.py:KalmanFilterSmoother.predict", "Filters/KalmanFilter.py:KalmanFilterSmoother.correct"]}
{"id": "C85", "title": "Filter and smoother are calibrated and optimal on simulated data", "statement": "Simulate a system with affine transition (time dependent coefficients allowed) and affine measurement function and positive definite covariances, and run kalman_filter and kalman_smoother of the object built from the same system on the simulated measurements. Assume only that every draw has the mean and covariance asked for and that different draws are uncorrelated (normal distributions are not needed). Then no call fails; the error of every filtered and of every smoothed mean has expectation zero and exactly the covariance reported with it; and no affine function of the measurements up to that time (filter) or of all measurements (smoother) has a smaller mean squared error in any direction. Consequently the expected square of Metrics.rmse is the average trace of the reported covariances, and, if scipy takes no reported covariance for singular, the expected Metrics.nll is the average entropy of the reported normal distributions.", "quantifier": "every number of steps, dimension, affine system with positive definite covariances, exact transform (Taylor, unscented), joint distribution of the draws with the stated first and second moments", "why_tests_cant": "Expectations over all simulated data sets and comparison with every affine estimator; a test sees finitely many seeds of one system and cannot tell a small bias or a slightly wrong covariance from chance.", "anchors": ["Filters/KalmanFilter.py:KalmanFilterSmoother.kalman_filter", "Filters/KalmanFilter.py:KalmanFilterSmoother.kalman_smoother", "Systems/DynamicSystem.py:DynamicSystem.simulate", "Utils/Metrics.py:rmse", "Utils/Metrics.py:nll"]}
{"id": "C86", "title": "How reported covariances respond to assumed noise, sensors and data", "statement": "For affine systems with positive definite assumed covariances and an exact transform: (1) data simulated from a system whose true prior, process and measurement covariances (possibly singular) are at most the assumed ones: the errors of all filtered and smoothed means have expectation zero and a mean square, in every direction, of at most what is reported with them; if the true covariances are at least the assumed ones, of at least what is reported. (2) Larger assumed covariances never lead to a smaller reported covariance, at any step, for filter and smoother, whatever the measurements. (3) Recording additional components of the measurements never leads to a larger reported covariance. (4) Appending measurements never enlarges the covariances that the smoother reports for earlier states, and the smoother never reports a larger covariance than the filter.", "quantifier": "every number of steps, dimension, affine system, measurement sequence, choice of recorded components, distribution of the draws with the stated first and second moments", "why_tests_cant": "Ordering of matrices in all directions for all pairs of models and all data; the mean square statement is over all simulated data sets.", "anchors": ["Filters/KalmanFilter.py:KalmanFilterSmoother.kalman_filter", "Filters/KalmanFilter.py:KalmanFilterSmoother.kalman_smoother", "Systems/DynamicSystem.py:DynamicSystem.simulate"]}
{"id": "C87", "title": "Steady state of the filter and fixed lag of the smoother", "statement": "For an affine system with constant transition and measurement matrices, positive definite covariances and some constant gain observer with bounded error: exactly one positive definite covariance is reproduced by prediction and correction; the covariances reported by kalman_filter converge to it geometrically from every prior and for all measurements, and stay there when started there. For bounded measurements, kalman_smoother run on the first N measurements gives for state i the means and covariances of the run on any longer record up to kappa * rho^(N-i) with rho < 1, where kappa and rho depend only on the model and the bound.", "quantifier": "every dimension, affine system with the stated condition, prior, number of steps, measurement sequence (bounded for the smoother)", "why_tests_cant": "Existence and uniqueness of a limit, and bounds that are uniform over all records; a test sees finitely many steps of finitely many systems.", "anchors": ["Filters/KalmanFilter.py:KalmanFilterSmoother.kalman_filter", "Filters/KalmanFilter.py:KalmanFilterSmoother.kalman_smoother"]}
{"id": "C88", "title": "What DisplayResults.py reports for the tables that the sweeps leave", "statement": "After a sweep of the growth model with trans_types=['UT'] on a file without results, the section of DisplayResults.py on that model (for any transform, damping and list of powers) returns and changes nothing: the line 'Kalman Smoother' is mean and population standard deviation, over the different seeds of the sweep, of the RMSE and NLL after the first pass with power = damping = 1; the line of a power those after 50 passes with the requested damping; a line is nan exactly when there is no row for it (transform, power or damping not in the sweep, or fewer passes). However any sweep of that model ends, every line whose transform, power or damping was not in the sweep is nan; in particular the lines of the script as shipped (damping 0.2) are all nan after the sweeps as shipped (dampings 1.0 and 0.8). The Lorenz 96 section reports nan in every line after any run of EP_Sweep_L96, however it ended, because it asks for a transform other than 'MCT'. After IEKS_Sweep_UNGM on a fresh file, the iterated smoother section gives mean and standard deviation of the scores over the seeds asked for if all of them were swept, nan if none was or the iteration number differs, and raises ValueError if only some were. Whatever the tables hold, the turning target and Lorenz 96 sections and those of the iterated smoother report exactly on the stored results whose transform, quantity or dimension, power, damping, iteration number and seed are those asked for, and a selected result without a number raises TypeError instead of being passed over.", "quantifier": "every list of seeds, powers, dampings, transforms asked for, number of iterations, simulated data, drawn numbers", "why_tests_cant": "It relates what one script stores to what another reads for all their parameters and all data; running both takes hours and covers one choice.", "anchors": ["Experiments/DisplayResults.py", "Experiments/EP_FullSweep.py:full_sweep", "Experiments/EP_Sweep_L96.py", "Experiments/IEKS_Sweep_UNGM.py"]}
{"id": "C89", "title": "remove_outliers", "statement": "For every nonempty array, remove_outliers returns the positions of all values above Q3 + 1.5 (Q3 - Q1) and below Q1 - 1.5 (Q3 - Q1), with Q1 and Q3 the linearly interpolated quartiles, and the other values in their order; at most a quarter of the values is removed on each side, so at least half remain and the call cannot fail. Given positions are removed exactly, whatever the values, with IndexError if nothing is left. Columns of the same rows stay in step when the positions found for one are passed for the other. A change of units (positive factor and shift) changes neither the positions nor which values remain. An empty array raises IndexError; with dont_remove=True the array is returned unchanged and without positions.", "quantifier": "every array of every length, every list of positions, every change of units", "why_tests_cant": "Bounds and invariances over all arrays, with ties and interpolated order statistics.", "anchors": ["Experiments/DisplayResults.py:remove_outliers"]}
{"id": "C90", "title": "Results do not depend on coordinates and units", "statement": "State the same system, prior and measurements in other coordinates (an invertible affine change of the state and another of the measurements). Then the extended Kalman filter and smoother, the iterated filter with any number of iterations, and any sequence of calls of an iterated smoother object return exactly the old means and covariances in the new coordinates. The same holds for the unscented filter and smoother (with nonnegative central covariance weight) when the change of the state is lower triangular (in particular for units and origins of single components and of any measurements), and need not hold when components are reordered: there are functions whose unscented mean then changes. Other units of the sensors alone change nothing at all, also for Monte Carlo filters with the same draws, and there not even which exception is raised when a step fails. Negative log likelihoods shift by the logarithm of the volume factor, the same for all estimators, and root mean square errors scale with the unit of length.", "quantifier": "every differentiable (for unscented: row by row) system of any dimension, every invertible affine change, every list of measurements, every number of iterations and sequence of calls", "why_tests_cant": "It compares two runs for every system and every change of coordinates; numerical tests cannot tell exact equality from closeness, and which changes are harmless depends on the square root chosen inside.", "anchors": ["Filters/KalmanFilter.py", "MomentMatching/UnscentedTransform.py", "MomentMatching/TaylorLinearisation.py", "MomentMatching/MonteCarloTransform.py", "Utils/Metrics.py"]}
{"id": "C91", "title": "The sweep of the turning target stores whole passes and can be resumed", "statement": "EP_Sweep_BearingsOnly (with Config and select_transform from EP_FullSweep; the import as written names a module that does not exist) offers three rows per completed EP pass, for position, velocity and angle in this order, with the metrics of the nodes after that pass, and commits the three together before the next pass. An exception comes from the first pass (or metrics of a pass) that fails, and then exactly the rows of the earlier passes are in the file. Whenever the process dies during a sweep, and whatever is raised, the result table in the file consists of whole passes, if it did before; old rows stay in place and no key gets a second row, also with override. A setting is skipped iff some row (any quantity) with its transform, seed, power, damping and iteration 50 is stored, and then all three quantities are. For results that depend only on seed and setting and at most 50 iterations, running the sweep again on whatever a crash left gives the file of an uninterrupted run.", "quantifier": "every system, list of seeds, transforms, powers, dampings, number of iterations, state of the database, and every moment of a crash", "why_tests_cant": "Crashes between statements and all states of the file cannot be enumerated; the skip query has no quantity clause, so it is right only because of an invariant over all reachable files.", "anchors": ["Experiments/EP_Sweep_BearingsOnly.py", "Utils/Database.py", "Experiments/EP_FullSweep.py"]}
{"id": "C92", "title": "The shaded band of a plotted estimate is a 95 percent interval", "statement": "For Gaussians with vector means, plot_gaussian shades, at times 0, 1, ..., the interval from mean minus 1.96 standard deviations to mean plus 1.96 standard deviations of the first component; negative covariances with other components do not disturb it. plot_gaussian_node shades the same interval of the marginals at times 1, 2, ..., together with lines of all mean components and, if given, of true states over the same times (a ValueError if their number differs), and it also accepts means of shape (1, n), which plot_gaussian rejects with a ValueError. Without data both raise. Means whose number of components does not fit the size of the covariances (and neither is one) make plot_gaussian raise a ValueError, no components an IndexError. The normal distribution with the plotted moments gives the interval a probability between 0.95 and 0.95001. On a linear Gaussian system the interval drawn for a filter or smoother holds that posterior probability of the first component given the measurements used, and on data simulated from the system with normal noise the true first component lies in the drawn interval with that probability, at each time. A variance below zero leaves a gap at its time and nowhere else.", "quantifier": "every list of Gaussians of any dimension, every linear Gaussian system and measurements of any number, every probability space with normal draws", "why_tests_cant": "Coverage is a probability over all noise sequences; simulation can only estimate it, and which entry of the covariance is shaded for all dimensions is a statement about all shapes.", "anchors": ["Utils/Plot_Helper.py:20-52", "Filters/KalmanFilter.py", "Systems/DynamicSystem.py"]}
{"id": "C93", "title": "Lines and bands over several runs", "statement": "plot_1d_data draws, at times 1, 2, ..., the average over the runs and, if there are at least two runs, a band of one standard deviation (of the runs, divided by their number) around it. The order of the runs does not matter; other units a x + o give the line a m + o and widths |a| s; the width is zero exactly where all runs agree; the line lies between the smallest and the largest run, at least one run is in the band at every time, and at most one in c^2 runs is further than c widths from the line.", "quantifier": "every array of N > 0 runs over T times, every permutation, unit and number c > 0", "why_tests_cant": "The claims hold for all real arrays; examples cannot show them for all sizes.", "anchors": ["Utils/Plot_Helper.py:55-85"]}
{"id": "C94", "title": "No other method and no other tuning scores better than the matching filter and smoother", "statement": "Simulate a linear system with normal noise and filter the measurements with the filter built from the same system. Any other method whatsoever that reports Gaussians for the same steps, each computed from the measurements up to its time, has an expected squared Metrics.rmse and (where defined) an expected Metrics.nll that are at least those of the filter; the same holds for the smoother and methods that use all measurements. With noise of any distribution of the right mean and covariance, a filter or smoother built from any other linear system, noise covariances or prior has an expected squared rmse and an expected nll that are at least those of the matching one, and its expected nll is strictly larger if any covariance it reports differs.", "quantifier": "every linear system, transform exact on it, number of steps, probability space with suitable draws, and every measurable method or every other linear model", "why_tests_cant": "The claim is about expected values over all noise sequences and about all competing methods.", "anchors": ["Utils/Metrics.py", "Filters/KalmanFilter.py", "Systems/DynamicSystem.py"]}
{"id": "C95", "title": "How far linearised and unscented moments can be from the truth", "statement": "For a function whose slopes change by at most K_i per unit of distance, and a random vector of any distribution whose mean and covariance are those of the Gaussian given: the mean returned by TaylorTransform is within K_i / 2 times the total variance of the true mean, the one returned by UnscentedTransform within K_i times it, for every alpha, beta, kappa with alpha^2 (n + kappa) > 0. If the distribution has fourth moments, the standard deviations and covariances returned by TaylorTransform and the covariances returned by UnscentedTransform are within explicit bounds of the true ones (proportional to K and to the root of the fourth moment of the distance from the mean; for normal distributions at most sqrt 3 times the total variance; for the unscented transform with a further term proportional to |beta - alpha^2|). The same bounds hold for predict of the extended and unscented Kalman filter against the true moments of the next state, whatever the distribution of the independent noise. For the growth model the predicted mean is off by at most 25 times the variance, the predicted measurement by at most a twentieth of it.", "quantifier": "every dimension, differentiable function with bounded change of slope, probability space and distribution with the given moments, and all parameters", "why_tests_cant": "The bound is over all functions and distributions; simulation gives only estimates of the true moments for single ones.", "anchors": ["MomentMatching/TaylorLinearisation.py", "MomentMatching/UnscentedTransform.py", "Filters/KalmanFilter.py:54-58"]}
{"id": "C96", "title": "Unscented transform of covariances that are not positive definite", "statement": "UnscentedTransform uses only the symmetric part of the covariance it is given. If that part is positive semidefinite but singular (for instance a state known exactly), the result for every function is the one for the covariance enlarged by 1e-10 times the identity; for an affine function A x + b the covariance returned is A P A^T + 1e-10 A A^T and the cross covariance P A^T + 1e-10 A^T. If the symmetric part is not positive definite even after the enlargement, every call raises LinAlgError.", "quantifier": "every dimension, covariance matrix, mean, function and unscented parameters with alpha^2 (n + kappa) > 0", "why_tests_cant": "Singular covariances have measure zero among random ones and a change of 1e-10 is below the tolerances of tests.", "anchors": ["MomentMatching/UnscentedTransform.py:41-57", "Utils/linalg.py:21-31"]}
{"id": "C97", "title": "The Cholesky factor of a state", "statement": "The first read of chol_cov returns the only lower triangular matrix with positive diagonal whose product with its transpose is the covariance; if the lower triangle of the covariance is not that of a positive definite matrix it raises LinAlgError and nothing is kept. The factor is kept once read: after assigning another covariance cov shows the new one and chol_cov still the factor of the old one, whereas assigning before the first read gives the factor of the new one.", "quantifier": "every dimension, state in moment or natural form and covariance", "why_tests_cant": "The uniqueness and the correctness are for all matrices; the staleness depends on the order of reads and assignments.", "anchors": ["StateModel/Gaussian.py:147-156", "StateModel/Gaussian.py:180-185"]}
{"id": "C98", "title": "The shape in which measurements are given does not matter", "statement": "Kalman filter, iterated filter, iterated smoother and expectation propagation give identical results (or the identical exception) whether each measurement is given as a vector of k numbers, as a row (1, k), as a column (k, 1) or, for a single number, as a numpy number, also when shapes are mixed within one run. A single projection Estimator.proj_meas, called directly, treats a row like the vector, but refuses a column of two or more numbers with ValueError.", "quantifier": "every system, transform, list of measurements and mixture of shapes", "why_tests_cant": "Every combination of shapes along a series would have to be tried, for every method.", "anchors": ["Filters/KalmanFilter.py:96-104", "Filters/KalmanFilter.py:162-170", "Filters/KalmanFilter.py:200-210", "ExpectationPropagation/Nodes.py:204-209"]}
{"id": "C99", "title": "The likelihood methods of TaylorTransform", "statement": "TaylorTransform._data_likelihood returns the log density of the data under the normal distribution with mean h(m) and covariance J P J^T, that is minus the nll of the Gaussian the transform itself predicts; the measurement noise does not enter. It raises LinAlgError whenever J P J^T is singular, in particular always when there are more measurements than states. TaylorTransform.project never returns: it raises TypeError wherever _data_likelihood has a value.", "quantifier": "every dimension, differentiable function returning a vector, mean, positive semidefinite covariance and data point; positive definite cases with the variances in any two directions within scipy's cutoff", "why_tests_cant": "Holds for all functions and states; that a method can never return is not shown by examples.", "anchors": ["MomentMatching/TaylorLinearisation.py:61-67", "MomentMatching/TaylorLinearisation.py:69-75"]}
{"id": "C100", "title": "States built from missing or redundant parameters", "statement": "Gaussian never checks its arguments. A covariance without mean and a precision without shift are dropped: all parameters then read None, dim raises IndexError, and products, quotients and powers raise TypeError. A mean without covariance reads its mean and dim, but precision, shift and all arithmetic raise AttributeError; a shift without precision reads shift and dim, but mean, cov and squared_error raise AttributeError. If all four are given they are kept as they are, even if they contradict each other: arithmetic uses only precision and shift, == and squared_error only mean and cov, and copy() forgets mean and cov. Printing shows the parameters the state is stored in, never raises and never converts.", "quantifier": "every combination of arguments and (with all four given) every history of reads", "why_tests_cant": "A claim about all arguments and histories; that a contradiction is never noticed can not be sampled.", "anchors": ["StateModel/Gaussian.py:95-123", "StateModel/Gaussian.py:127-178", "StateModel/Gaussian.py:255-271"]}
{"id": "C101", "title": "Arithmetic between states of different dimension", "statement": "Multiplying, dividing or comparing two states of different dimensions, neither of them one, raises ValueError. If one of them is one-dimensional nothing is raised: the product (in either order) is the n-dimensional density times the one-dimensional density evaluated at the sum of the n coordinates, and the quotient is divided by it.", "quantifier": "all dimensions and all natural parameters", "why_tests_cant": "Concerns all dimensions and parameters; what the silently broadcast result means is not visible in an example.", "anchors": ["StateModel/Gaussian.py:190-196", "StateModel/Gaussian.py:198-210", "StateModel/Gaussian.py:222-229"]}
{"id": "C102", "title": "Where expectation propagation stops", "statement": "If one pass of EP (ep_fwd_back_updates, or any schedule calling each update at most once) leaves the graph exactly as it was, then each single update of it leaves the graph as it is: updates never move a node and move it back. Hence every further schedule of these updates leaves the graph unchanged. If moreover all updates were accepted, the same holds for every other damping factor: damping changes the path, not the points where it stops. At such a point the state returned by the measurement and by the backward projection is the marginal, and the predicted state is the forward factor (natural parameters, precisions symmetrised); conversely, an update whose projection returns these is accepted and changes nothing.", "quantifier": "all graphs whose marginals and factors are stored in natural parameters (as accepted updates leave them) of any array shapes, all projections, powers, dampings other than 0, all schedules", "why_tests_cant": "A run that has stopped does not show whether updates cancel each other, nor what other dampings and orders would do; concerns all projections and graphs.", "anchors": ["ExpectationPropagation/Nodes.py:61-80", "ExpectationPropagation/Nodes.py:82-122", "ExpectationPropagation/Nodes.py:124-134", "ExpectationPropagation/Iterations.py:8-42"]}
{"id": "C103", "title": "Every node reports a proper covariance at every moment", "statement": "Build a factor graph for any system, estimator and measurements and call any updates or iterations in any order, whether they are accepted, rejected or raise: every node can be asked for its mean, and its covariance is a symmetric positive definite matrix. If the state dimension is not one, the matrix has exactly that dimension, even if projections return states of other shapes. A node whose covariance was proper before never loses this.", "quantifier": "all graphs, systems, estimators (projections returning anything, powers, dampings, also negative), measurements, all schedules of updates, all iterations", "why_tests_cant": "Concerns every schedule and every result a projection could return; whether a rejected update would have been caught depends on the numbers.", "anchors": ["ExpectationPropagation/Nodes.py:61-134", "Utils/linalg.py:45-50", "StateModel/Gaussian.py:33-59", "StateModel/Gaussian.py:190-196"]}
{"id": "C104", "title": "Setting up a factor graph incompletely or in another order", "statement": "Giving the nodes their estimator before or after their system makes no difference when there is a measurement for every node. Without an estimator nothing complains during setup; every iteration then raises a TypeError at its first update and changes nothing. With fewer measurements than nodes, node_system silently returns only the nodes that have a measurement; the others stay linked to them but have no functions and no measurement. Iterating over all the nodes then never returns normally, whatever was run before. Iterating over the returned nodes: the backward update of the last of them changes nothing, whatever is run, so its backward factor stays flat. On a scalar state the forward sweep gives what it would give with all measurements, and the first pass raises a TypeError at its first backward update with the nodes holding the results of the forward sweep; so smoothing is impossible although filtering works.", "quantifier": "all graphs, systems, estimators whose transform calls its function (unscented, Monte Carlo, Taylor), numbers of nodes and measurements, schedules; for the first pass all scalar systems under transforms satisfying the Cauchy-Schwarz inequality with positive power and noise", "why_tests_cant": "The failure appears only for combinations of node and measurement counts nobody writes a test for, and concerns every state the graph can reach.", "anchors": ["ExpectationPropagation/Nodes.py:137-150", "ExpectationPropagation/Nodes.py:153-212", "ExpectationPropagation/Nodes.py:98-122", "ExpectationPropagation/Iterations.py:19-42"]}
{"id": "C105", "title": "Predicted measurements: exact likelihood and white innovations", "statement": "On a linear Gaussian system with a transform that is exact for affine functions, take before each measurement the previous result of kalman_filter (or the prior), call predict, then the measurement transform, and add the measurement noise to the covariance. The density of the whole measurement sequence (the joint density integrated over all trajectories) is the product of the normal densities of the measurements with these means and covariances; so minus its logarithm is the sum of Gaussian.nll of the predicted measurements, whenever their eigenvalues do not differ by more than scipy's cutoff (always for scalar measurements). On simulated data of the same system, whatever the distribution of the draws as long as it has the mean and covariance asked for and different draws are uncorrelated, the differences between measurements and predicted measurements have mean zero and exactly the predicted covariance, and those of different times are uncorrelated. The expected normalised squared error of every calibrated estimate (filter, smoother, predicted measurement) is the number of its components.", "quantifier": "all affine systems with time dependent transition and positive definite covariances, all exact transforms, all measurement sequences and lengths, all distributions of the draws with the right first and second moments", "why_tests_cant": "Densities are integrals over all trajectories, and means and correlations are integrals over all random numbers; a test only sees samples.", "anchors": ["Filters/KalmanFilter.py:54-72", "Filters/KalmanFilter.py:86-104", "Systems/DynamicSystem.py:106-127", "StateModel/Gaussian.py:231-238"]}
{"id": "C106", "title": "Combining sensors and steps", "statement": "With sensors that are affine in the state and a transform that is exact for affine functions, correcting a state (positive definite covariance) with several measurements at one time, each by the filter object of its sensor, gives the same mean and covariance in every order; two corrections equal one correction with the stacked sensor and block diagonal noise; N corrections with readings of one sensor equal one correction with their average and an N-th of the noise covariance; a sensor that does not see the state changes nothing. Two predictions equal one prediction with the composed motion and the noise of the first carried through the second; so for the constant velocity tracking model the prediction over an interval is the same however the interval is cut into systems with their own delta_t (unscented or Taylor transform). For sensors that are not affine the order matters: with the extended Kalman filter, readings 0 of x and 2 of x*x, starting at mean 1 and variance 1, give mean 13/12, variance 1/3 in one order and mean 7/6, variance 1/6 in the other.", "quantifier": "all dimensions, all lists of affine sensors with positive definite noise and their permutations, all readings, all exact transforms; all lists of step lengths with the same sum", "why_tests_cant": "Equalities for all sensor matrices, dimensions and orders; a test compares a few, up to a tolerance.", "anchors": ["Filters/KalmanFilter.py:54-72", "Systems/BearingsOnlyTracking.py:16-31", "Systems/BearingsOnlyTracking.py:72-76"]}
{"id": "C107", "title": "With normal noise, normalised errors are chi-square and innovations are independent", "statement": "Simulate a system with affine transition (time dependent coefficients allowed), affine measurement function, positive definite covariances and normal noise, and run kalman_filter and kalman_smoother of the object built from the same system on the simulated measurements. At every time the normalised squared error (x - m)' C^-1 (x - m) of the filtered and of the smoothed state has the chi-square distribution with as many degrees of freedom as the state has components. The differences between the measurements and the predicted measurements (predict, then the measurement transform, plus the measurement noise) are independent of each other; each has a chi-square normalised square, and the sum of the normalised squares over the whole run is chi-square with N times k degrees of freedom.", "quantifier": "all affine systems with positive definite covariances, all dimensions and lengths, all exact transforms, all random number generators whose draws are jointly normal with the right moments", "why_tests_cant": "Distributions and independence are statements about all random numbers; a test sees samples and can reject only at some level.", "anchors": ["Filters/KalmanFilter.py:54-72", "Filters/KalmanFilter.py:86-131", "Systems/DynamicSystem.py:129-156"]}
{"id": "C108", "title": "Curves and heat maps drawn from the result tables show the right iterations and settings", "statement": "The notebooks read the result tables with queries that ask for no order, plot the k-th returned number as iteration k and reshape 361 returned rows to a picture. After any number of sweeps of Experiments/EP_FullSweep.py into one file (any systems, settings, seeds, numbers of iterations and flags, each possibly killed at any moment) the query for a transform, seed, power and damping nevertheless returns the scores of iterations 1, 2, 3, ... in this order with none missing in between, whether sqlite visits the table in order of insertion or along its index. So plot_experiment draws at iteration t the average over the seeds of the scores stored for iteration t, with a band of one standard deviation, for at most fifty iterations; after a sweep of the growth model with unscented transforms these are the scores after t passes of power EP. With a single stored iteration it fails with IndexError. first_iteration_mean is the average over the seeds of the scores of iteration one with power and damping one, and an IndexError if a seed has no such row. make_image_data fails with ValueError unless exactly 19 x 19 rows are stored for the transform, seed and iteration; so after any history of sweeps over fewer than 361 pairs of power and damping, such as the sweep as it stands, no heat map can be drawn. After a complete sweep of the growth model with nineteen powers and nineteen dampings the pixel in line j and column i of plot_sweep is the average over the seeds of the scores for the i-th power (axis Power) and j-th damping (axis Damping), provided that rows come in order of insertion or powers and dampings were listed in ascending order.", "quantifier": "all histories of sweeps and kills, all settings, seeds, tables and both orders in which sqlite may visit rows; all simulated data for the growth model", "why_tests_cant": "The order of the stored rows depends on the whole history of runs, kills and resumptions of a file, which no finite set of test files covers.", "anchors": ["Notebooks/PlotPerformanceAllSeeds.ipynb:130-137", "Notebooks/PlotPerformanceAllSeeds.ipynb:221-232", "Notebooks/PlotHeatmap.ipynb:116-163", "Experiments/EP_FullSweep.py:99-119", "Utils/Database.py:62-110"]}
{"id": "C109", "title": "The demonstration notebook completes and shows what it says", "statement": "Notebooks/Demo.ipynb on simulated data of the growth model of any length of at least two steps never raises an exception. It draws the means of the unscented Kalman filter and smoother with the true states and prints their root mean square errors and negative log likelihoods. One pass of expectation propagation with power and damping one gives the picture (means, band of 1.96 standard deviations, true states) and the scores of the same smoother, except that every prediction is multiplied by a factor of precision 1e-10; the scores are continuous from the right in this number at zero, which is the sense in which the notebook's 'results are identical as expected' holds. After nine more passes picture and scores are those of the tenth iteration. The curves of the damped run show at index k the scores after k+1 passes of power EP with power and damping 0.8; the pictures of iterations 1, 10 and 50, drawn after the loop from deepcopy(nodes), show the estimates at the time of the copy, and their titles the scores of that iteration: later passes do not change the copies, whose links lead to copies. Asking for an iteration that was not run raises IndexError; none is left out silently.", "quantifier": "all data (states and measurements) of at least two steps, all earlier contents of the heap, all deep copies of a chain of nodes", "why_tests_cant": "A test runs the notebook on one seed; that no seed lets an update, a picture or a score fail, and that copies stay what they were, are statements about all data and all later passes.", "anchors": ["Notebooks/Demo.ipynb:56-61", "Notebooks/Demo.ipynb:135-201", "Notebooks/Demo.ipynb:278-322", "Notebooks/Demo.ipynb:370-408", "Notebooks/Demo.ipynb:486-568", "Utils/Plot_Helper.py:30-52", "Utils/Metrics.py:4-23"]}
{"id": "C110", "title": "Precisions of factors never become negative, except under damping with power one", "statement": "On scalar states (any transition and measurement functions, transforms that satisfy the Cauchy-Schwarz inequality, such as unscented transforms with nonnegative centre weight, positive noise) with a power below one and a damping in (0, 1], no sequence of forward, measurement and backward updates in any order gives the forward, measurement or backward factor of a node a negative precision, and the precision of the marginal is 1e-10 plus the sum of the three divided by the power, so it never falls below the threshold under which a precision counts as none. The same holds after any number of passes with power one and damping one, in particular for the growth model of the experiments with any data. It is not true for power one with damping below one: for a linear chain of two nodes whose measurements say nothing, the first pass leaves a backward factor of negative precision.", "quantifier": "all systems on the line, data, powers below one, dampings in (0, 1], sequences of updates; all numbers of passes for power and damping one", "why_tests_cant": "The sign of a precision depends on real data through nonlinear functions and on the whole history of updates; the claim is about all of them.", "anchors": ["ExpectationPropagation/Nodes.py:62-135", "MomentMatching/Estimator.py:48-107", "StateModel/Gaussian.py:190-225"]}
{"id": "C111", "title": "Estimates move no further than the drop in variance and the surprise in the data allow", "statement": "For every system, linear or not, and every transform that amounts to a linear function plus noise at the state at hand (Taylor; unscented with nonnegative centre weight): correct() moves the mean, in every direction v, by at most the square root of (decrease of the variance in direction v) times (squared innovation in units of its predicted covariance), and kalman_smoother moves the mean of every filtered state by at most the square root of (decrease of the variance) times (sum of the normalised squared innovations of all later measurements). In particular a smoother that reports no gain in certainty in some direction does not move the estimate in that direction, and moves grow at most like the square root of the number of later measurements, not exponentially with it.", "quantifier": "all dimensions, systems, positive definite noises and priors, measurement lists of any length, directions", "why_tests_cant": "An inequality over all data and all nonlinear systems, between quantities of the whole future of a run.", "anchors": ["Filters/KalmanFilter.py:54-84", "Filters/KalmanFilter.py:86-130"]}
{"id": "C112", "title": "Reported variances and means stay bounded for the growth model, whatever the data", "statement": "If the transform's predicted variance of a scalar system is at most a times the variance plus b (a < 1), then filter and smoother report no variance above b/(1-a) (or the prior variance, if larger), however long and whatever the measurements; and expectation propagation with power below one and damping in (a, 1], or both one, reports no variance above b/(damping - a) after any positive number of passes. For the growth model of the experiments with the unscented transforms used there the condition holds for a = 1/2: filter and smoother report variances of at most 940, expectation propagation at most 470/(damping - 1/2). If all measurements lie between -Y and Y, the means of the filter lie between -(41 + 4Y/3) and 41 + 4Y/3: no sequence of measurements makes the filter diverge.", "quantifier": "all scalar systems meeting the condition, all data of any length, all powers and dampings in the ranges, all numbers of passes", "why_tests_cant": "Divergence of a nonlinear filter on unlucky data can never be excluded by trying data; the bound is uniform in data, length and passes.", "anchors": ["Filters/KalmanFilter.py:54-130", "ExpectationPropagation/Nodes.py:62-135", "MomentMatching/UnscentedTransform.py:UnscentedTransform._transform", "Systems/UniformNonlinearGrowthModel.py:f", "Systems/UniformNonlinearGrowthModel.py:h"]}
{"id": "C113", "title": "What the tables store can be read back", "statement": "Simulated states and measurements of every system of the library, stored by insert_dynamics_data, are returned by a query of the whole table (on a connection that parses declared types) in order, with seed, time and the very arrays of the simulation. Result rows of ep_iterations are returned as they were written. In general a column of type NParray gives back exactly arrays of rank at least one and missing values, a column of type pickle exactly lists and missing values; a numpy scalar in the first, or a number or an array in the second (such as the 0.0 with which power_sweep starts), makes every query of the whole table raise, whatever the other rows. What the file holds tells values apart, except a numpy scalar from a number.", "quantifier": "all simulated data, all tables and previous rows, all values", "why_tests_cant": "All values and all table contents; a wrongly typed value shows only when the column is read, possibly after days of computation.", "anchors": ["Utils/Database.py:adapt_array", "Utils/Database.py:convert_array", "Utils/Database.py:adapt_list", "Utils/Database.py:convert_list", "Utils/Database.py:open_database"]}
{"id": "C114", "title": "How certain filter and smoother can and must be", "statement": "On a linear Gaussian system (matrices may depend on time, exact transform): however many measurements there are and whatever the prior, no covariance reported by kalman_filter is below (Q^-1 + H' R^-1 H)^-1, which is what one measurement leaves of the process noise when the state before is known exactly, and no covariance reported by kalman_smoother is below (Q^-1 + H' R^-1 H + A' Q^-1 A)^-1, A being the next transition. If the measurement of a step determines the state (G H = 1 for some matrix G), the covariance reported by filter and smoother for that step is at most G R G', so the prior or a bad motion model never makes the result less certain than the measurement alone. The same holds for the extended Kalman filter and smoother (Taylor transform, correct Jacobian) on every system with differentiable functions, H being the Jacobian of the measurement at the transition of the previous estimate and A that of the next transition at the filtered mean; so on the growth model, whatever is measured, the filter's variance is at least 1/(1 + x^2/1000) and at most 1000/x^2, x being the transition of the previous estimate.", "quantifier": "all dimensions, time dependent matrices or differentiable functions, positive definite covariances, priors, measurement lists of any length", "why_tests_cant": "Bounds that hold for all priors and all lengths of a record; a run shows one.", "anchors": ["Filters/KalmanFilter.py:54-84", "Filters/KalmanFilter.py:86-130"]}
{"id": "C115", "title": "Iterating does not make expectation propagation more certain than the noise allows (scalar state)", "statement": "Scalar state, transforms for which cross covariance C and variance p satisfy |C| <= a p for all transitions and |C| <= s p for the measurement (the unscented transform does when the functions are Lipschitz with constants a and s). Whatever the prior, the data, their number and the nonlinearity: kalman_filter reports no variance below 1/(1/q + s^2/r) and kalman_smoother none below 1/(1/q + s^2/r + a^2/q). Power EP with a power below one and a damping in (0,1] raises no error and leaves no marginal variance below 1/(1e-10 + 1/q + s^2/r + a^2/q) after any sequence of node updates in any order and number; with power and damping one the same holds after any number of forward-backward passes. So running more iterations, or visiting a node again and again, never counts the evidence twice.", "quantifier": "all slope bounds a and s, noises q and r > 0, priors, records of any length, lists of node updates of any order and length, numbers of passes, powers and dampings in the stated ranges", "why_tests_cant": "A bound on every execution, for update orders and iteration counts without limit; a run shows one.", "anchors": ["Filters/KalmanFilter.py:54-130", "ExpectationPropagation/Nodes.py:62-135", "MomentMatching/UnscentedTransform.py:UnscentedTransform._transform"]}
{"id": "C116", "title": "The Lorenz-96 time step follows the differential equation to fourth order", "statement": "The differential equation x_j' = (x_{j-1} - x_{j+2}) x_{j+1} - x_j + F has a solution for all times from every initial state, and its energy sum x_j^2 stays below exp(-t) times the initial energy plus (1 - exp(-t)) dim F^2. One call of the transition f with step delta_t differs from the solution by at most C delta_t^5, with C depending only on dimension, forcing and the size of the state; repeated calls up to a time T differ from it by at most C delta_t^4 for all step sizes below some bound. Repeated calls with a step size below some bound never blow up: all states stay in a bounded set that depends on dimension, forcing and the size of the first state only. The order is no better: on states with equal components the step returns the Taylor polynomial of degree four of the solution F + (a - F) exp(-t). Large steps are unstable: from a state with equal components a != F repeated calls converge to the equilibrium F if delta_t^3 - 4 delta_t^2 + 12 delta_t - 24 < 0 (delta_t up to about 2.785) and leave every bounded set if it is positive.", "quantifier": "every dimension, forcing, initial state, final time; all solutions, all step sizes below a bound, all numbers of steps", "why_tests_cant": "An asymptotic rate for all step sizes, against exact solutions that have no closed form; a wrong stage weight gives a lower order and plausible trajectories.", "anchors": ["Systems/L96.py:model", "Systems/L96.py:f"]}
{"id": "C117", "title": "The unscented filter does not diverge on simulated data of the growth model", "statement": "Simulate the growth model for N steps with numbers that have the means and covariances asked for, and run the unscented filter of the experiments on the simulated measurements. Neither fails, and at every time the expected distance between the mean that the filter reports and the true state is at most 316, and the expected square of the true state at most 3370, both independent of N; the reported variance is at most 940.", "quantifier": "every length N and every time, all distributions of the drawn numbers with the right means and covariances (not only normal ones)", "why_tests_cant": "An expectation over all random runs, uniform in the length; unbounded noise makes arbitrarily bad runs possible, so no finite set of seeds excludes divergence.", "anchors": ["Systems/DynamicSystem.py:DynamicSystemModel.simulate", "Systems/UniformNonlinearGrowthModel.py:f", "Systems/UniformNonlinearGrowthModel.py:h", "Filters/KalmanFilter.py:54-130", "MomentMatching/UnscentedTransform.py:UnscentedTransform._transform"]}
{"id": "C118", "title": "Extended Kalman filter: bounded variances for gentle slopes, divergence on the growth model", "statement": "On a scalar system whose transitions have slopes with squares of at most a < 1, the filter and the smoother with the Taylor transform report no variance above q/(1-a) (or the prior variance, if larger), whatever the data. For the growth model, whose slopes reach 25.5, there is no bound: there is one infinite sequence of measurements, all between -4 and 4, on which the extended Kalman filter reports variances of at least 15 * 87^i after step i (exact arithmetic) and means between -1/2 and 1/2, and the smoother does so at the last time. After one more measurement, 4, its mean exceeds 9^(i+1), so the means have no bound on data between -4 and 4 either. On such data the unscented filter of the experiments reports variances of at most 940 and means of at most 47 in absolute value.", "quantifier": "all scalar systems with gentle slopes, all data and lengths; for the growth model one sequence of measurements for all lengths and all correct Jacobians", "why_tests_cant": "Simulated data will hardly ever follow the sequence that makes the variance explode, and bounds for all data cannot be tested.", "anchors": ["Filters/KalmanFilter.py:54-130", "MomentMatching/TaylorLinearisation.py:TaylorTransform._transform", "Systems/UniformNonlinearGrowthModel.py:f", "Systems/UniformNonlinearGrowthModel.py:h"]}
{"id": "C119", "title": "The Kalman filter and smoother with the Monte Carlo transform converge to the exact posteriors, but may report negative variances", "statement": "On a linear Gaussian system with positive definite covariances the filter and the smoother with the Monte Carlo transform succeed for every number of samples N >= 2 and every outcome of the draws. If each call of the generator returns mean + root(cov) z with standard normal samples z, independent within the call, then almost surely all reported means and covariances converge, as N grows, to the mean and covariance of the exact posterior distribution of the state given the measurements so far (filter) or all measurements (smoother). For every finite N, however, a correction of a one-dimensional state returns a negative variance with positive probability, because the gain is computed from the samples but subtracted from the requested covariance.", "quantifier": "all linear Gaussian systems (time dependent maps allowed), all measurements and lengths, all roots of covariances, all numbers of samples; almost all outcomes of the draws", "why_tests_cant": "A test sees finitely many samples of one outcome; convergence with probability one and rare negative variances are statements about all of them.", "anchors": ["MomentMatching/MonteCarloTransform.py:15-24", "Filters/KalmanFilter.py:54-130", "StateModel/Gaussian.py:248-253"]}
{"id": "C120", "title": "Kalman filter and smoother results depend continuously on the system, the prior, the data and the transforms", "statement": "Let a sequence of filter objects approach a linear Gaussian system with positive definite covariances: noise covariances and priors converge to those of the system, and the transforms of the transition and measurement functions return, for converging input states, moments that converge to the exact ones. Let the measurements converge too. Then from some point on the filters and smoothers succeed on their measurements, and all reported means and covariances converge to the mean and covariance of the exact posterior of the limit system. The condition on transforms holds for exact transforms of linear maps with converging coefficients, for the Monte Carlo transform with faithful draws and a growing number of samples, for the Taylor transform of nonlinear functions that approach a linear one with their derivatives, and for the unscented transform (alpha^2 (n + kappa) > 0) of nonlinear functions that approach a linear one uniformly on bounded sets. So small errors in models, noise settings, priors or data change the results little, and an extended or unscented Kalman filter on a nearly linear system is nearly the exact filter.", "quantifier": "all linear limit systems (time dependent maps allowed), all sequences of systems, priors, noise settings and data of any length that approach them", "why_tests_cant": "A test compares finitely many perturbed runs; a limit over all ways to approach a system cannot be tested.", "anchors": ["Filters/KalmanFilter.py:54-130", "MomentMatching/TaylorLinearisation.py:TaylorTransform._transform", "MomentMatching/MonteCarloTransform.py:15-24"]}
{"id": "C121", "title": "On nonlinear systems too, filter and smoother results are continuous functions of data, prior and parameters", "statement": "Let a nonlinear filtering problem depend on a parameter from any topological space: measurements, prior, noise covariances, transition and measurement function, control and start time may all vary continuously with it, with positive definite covariances. Let the Kalman object use Taylor transforms (functions with continuous values and derivatives) or unscented transforms (continuous functions, nonnegative centre weight). Then filter and smoother succeed for every parameter, and the means and covariances at each time step are continuous functions of the parameter. In particular they are continuous in the measurements; over a compact set of problems the smoothed moments are bounded and the determinants of the covariances stay above a positive constant. The same holds for the iterated extended Kalman filter with any number of iterations, and for every call in any sequence of calls of one iterated extended Kalman smoother object; on the growth model its estimates are therefore continuous in all measurements together and, for each number of measurements and iterations, stay within bounds (variances above a positive one) fixed by a bound on the measurements. For Lorenz 96 with the default unscented transform, and with the iterated smoother in every dimension from two on, the results are jointly continuous in noise levels, time step, forcing, initial condition and data. Discontinuous measurement functions (the bearings of C63, which jump by 2 pi) are not covered.", "quantifier": "all parameter spaces, all continuous families of problems, any number of measurements; all parameters of the unscented transform with positive scale and nonnegative centre covariance weight", "why_tests_cant": "Continuity is a statement about all perturbations of all inputs; tests compare finitely many pairs of runs.", "anchors": ["Filters/KalmanFilter.py:54-130", "MomentMatching/TaylorLinearisation.py:TaylorTransform._transform", "MomentMatching/UnscentedTransform.py:41-73", "Filters/KalmanFilter.py:178-253"]}
