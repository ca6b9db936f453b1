# Formal model of EPyStateEstimator in Lean 4 — design

The model lives in `lean/Verif/`. Every definition that models code carries a doc comment with the file and lines
of `/repo` it models and the simplifications made.

## 1. What is modelled and how

**Numbers.** All floating point numbers are modelled by exact real numbers (`ℝ`). Rounding, overflow, `nan`/`inf`
are *not* modelled. Theorems therefore speak about the algorithm in exact arithmetic. Where the code would leave
the reals (division of an array by zero) the model raises the marker exception `Err.outOfModel`.

**Arrays.** numpy arrays of rank ≤ 2 are modelled with their *shape* (`Arr`: scalar `()`, vector `(n,)`, matrix
`(r,c)`), and `+ - @ np.dot .T reshape squeeze atleast_1d vstack` follow numpy's broadcasting and error rules. This
matters: several observable facts about this code base are about shapes (see C41, C52, C54). Tensors of higher rank
only occur as the raw output of autograd's `jacobian`.

**Exceptions** are values: `Except Err`. `Err` distinguishes `LinAlgError`, `LinAlgWarning` (turned into an exception
by the code's warning filter), `ValueError`, `AttributeError`, `IndexError`, `TypeError`, `AssertionError`,
`StopIteration`, ... so that the code's `except LinAlgError` / `except AttributeError` / bare `except` are modelled
branch by branch.

**External libraries** are modelled by their mathematical contract:
* `np.linalg.cholesky(A)`: reads the lower triangle; succeeds iff the symmetric matrix it defines is positive definite.
* `scipy.linalg.cholesky(A, lower=False)`: reads the upper triangle; returns the upper triangular `R`, positive
  diagonal, `RᵀR = A` (existence is proved, not assumed).
* `np.linalg.solve(A,B)`: `A⁻¹B`, `LinAlgError` iff `det A = 0`.
* `scipy.linalg.solve(.., assume_a='pos'|'gen')`: as above, plus an arbitrary oracle `Env.ill` deciding whether an
  ill-conditioning warning is raised (the code turns it into an exception and falls back to jittered solves).
* `autograd.jacobian`: an oracle (a function argument); theorems that need its meaning say so in their hypotheses.
* `np.random`: every sampling routine takes the drawn numbers as an argument, theorems hold for all draws. In simulations the
  result of `multivariate_normal` is a function of the number of the call, the mean and the covariance it is called with (`Rng`).
* sqlite: a table is a list of rows with a UNIQUE key, `INSERT OR IGNORE`, a committed and a working copy.

**Mutation.** Lazily cached attributes of `Gaussian`, the doubly linked node graph (with references, so that sharing
and aliasing can be expressed), the attributes of the `IEKS` object, arrays mutated by `+=` in `simulate`, and
the database are modelled as explicit state threaded through a state+exception monad in which an exception does *not*
roll back the state.

**Database and sweeps.** `full_sweep` is modelled with the numerical part as a parameter: what a setting computes (the graph of nodes it
builds and its metrics) is a function of the seed and the setting, with a fresh heap for every `power_sweep`; random draws
inside a setting are fixed. Table names are exact strings; the `%`-formatting of floats into SQL text is not
modelled (a float is stored as itself); only integrity errors and missing tables raise `Err.sql`. A crash is a cut
after any prefix of the statements sent to sqlite, and leaves the committed copy.

**Metrics.** `multivariate_normal.logpdf` is modelled for covariances accepted as non-singular by scipy's eigenvalue cutoff (ratio below
`10⁶ · 2⁻⁵²`); others are `outOfModel`. `str.upper` is modelled for ASCII letters.

**Not modelled:** floating point, random number generators (only their results), pickling / `np.save` byte formats (what passes through them: `Model/Adapters.lean`),
plotting beyond the numbers handed to matplotlib (`Model/Plot.lean`), printing, logging, click's command line parsing,
the notebooks (except the queries, averages and pixels of the plotting notebooks, `Model/Notebooks.lean`, and the numbers of the demonstration, `Model/Demo.lean`),
autograd itself, performance, and the scripts' `__main__` demos.

## 2. Properties and how each is approached

| id | model | proof |
|----|-------|-------|
| C01–C03 | `natural_to_moment`, `moment_to_natural` on arrays, `Env.ill` oracle | matrix inverse algebra, `PosDef.inv` |
| C04, C09, C11 | `Gaussian` object with option fields, getters as state transformers, setters | invariant over read histories (induction on list of reads) |
| C05–C08 | `mul`, `truediv`, `pow`, `asFactor` | algebra of symmetric matrices; independent spec: log density quadratic form |
| C10 | `eq` with numpy `allclose` | reflexivity in general, counterexamples for symmetry, transitivity |
| C12, C13 | `symmetrize`, `validateCovariance`, `jitteredSolve` | PosDef / PosSemidef theory |
| C14–C16 | `UnscentedTransform` weights, sigma points, transform | sums over `Fin (2n+1)`, Cholesky factor law |
| C17, C19 | Taylor transform with Jacobian oracle, `numerical_jacobian` | matrix algebra, polynomial identity; third derivative bound by three monotonicity arguments |
| C18 | Monte Carlo transform over an arbitrary sample matrix | sums |
| C20–C23 | `predict`, `correct`, `smooth` | Woodbury identity, Loewner order |
| C24–C26 | `kalman_filter`, `kalman_smoother` loops as folds over lists, with the list of time stamps | list induction |
| C27 | `IEKF.correct` as a recursion on the number of iterations | algebra; counterexample for the sign |
| C28–C30 | `IEKS` with object state kept between calls | induction on iterations and on the time steps; counterexamples |
| C31–C33, C44 | heap of node objects, `build_nodes`, `node_system`, `node_estimator`, `copy` | induction over lists |
| C34–C39 | node updates in a state+exception monad without rollback | case analysis; invariant over arbitrary schedules |
| C41, C42 | Estimator + nodes + transforms composed | shape analysis |
| C40, C43, C66 | scalar states, unscented (or any Cauchy–Schwarz) transforms | `Spec/Scalar`: power EP, filter and smoother in plain numbers (`Chain`), transforms abstracted to rules (`Realises`); simulation `Sim` between heap and plain numbers, then analysis of the recursion. Assumes scipy gives no warning for 1×1 matrices; the shape (1,1) of marginal means is tracked |
| C67 | filter and smoother on affine systems of any dimension | `Spec/Posterior`: joint density of trajectory and measurements, marginals by Mathlib's `lmarginal` (Lebesgue integral over the other states). Proof: product of normal densities (Woodbury, determinant identity, completion of squares), forward and backward induction over the integrals, then the loops of the code |
| C68 | unscented transform against the normal distribution | `Spec/Expectation`: expectation = integral against Mathlib's `multivariateGaussian`. Proof: reflection symmetry of the law splits polynomials into even and odd part, second moments from Mathlib's covariance, fourth moment from the derivatives of the moment generating function, all fourth moments by polarisation (`Lemmas/Isserlis`), covariances of quadratics as traces (`Props/Quadratic`) |
| C69 | Monte Carlo transform over random draws | `IidDraws` (`Spec/Expectation`): the draws are the first N members of a pairwise independent sequence with the law `multivariateGaussian`; existence proved. Proof: Mathlib's strong law of large numbers for means and products; independence for unbiasedness (this is what fixes the divisor N - 1) |
| C70 | Power EP, scalar affine | The recursion of `Chain` (C66) with any power: factors are the powers of those of power one (`pw`), because an affine measurement multiplies the natural parameters by a fixed factor and smoothing in natural parameters (`smooth_alg`) is homogeneous in noise, future and power. Fixed point for powers <= 1 as in C43. `Chain.Heard` (`Spec/Scalar`) is the threshold condition, automatic for powers >= 1 and implied by a bound in terms of the coefficients |
| C71 | UT sweep of UNGM | Composition: C66 (no pass fails, values = recursion of `Chain`), metrics of scalar marginals of either shape (C58, C64), `epRows_ok`, and an invariant of the sweep over the stored rows (`Stored`: rows of a fresh seed and setting are absent or all there). `Chain.estimates` (`Spec/Scalar`) iterates the recursion, `scores` (`Spec/Metrics`) is RMSE and mean negative log density in plain numbers. Assumes the simulated data has shape `(1,)` entries, as `simulate` produces |
| C72 | Even measurements | `EvenAt F μ` (F (μ+d) = F (μ-d)) in `Props/Even`; opposite sigma points cancel in the cross covariance, the derivative at the mean is zero; `correct` with zero cross covariance is the identity on moments. Applied to `L96.h` (`(1, n)` values, so `n ≠ 1` for Taylor) and `UNGM.h` |
| C73 | TestDynamics | Direct evaluation of `TestDyn.f`; sigma points exist, then the transition raises on `u = None`; with a control the rule `unscented` of `Spec/Scalar` |
| C74 | Sweeps in several dimensions | An unscented transform with nonnegative weights returns the moments of a linear function plus independent noise (statistical linear regression), so the first measurement update is accepted and leaves a matrix mean; the next forward update raises. `Proper` and `OnRows` are checked for `L96.init` and `BOT.init`; turning tracking is left out (its transition is outside the model at turn rate zero) |
| C75 | Completeness and contraction | One invariant, `GoodState` (vector mean, positive definite covariance), kept by predict, correct and smooth whenever the transform returns the moments of a linear function plus independent noise (`LinearisesOn`). Contraction by induction from the last state: `Cs - Cf = J (Cs' - Cp) Jᵀ` | 
| C76 | Iterated filters | `Tame` (differentiable in the state, shape the Taylor transform can handle) is kept by linearisation, so the lists of lambdas of an `IEKS` object stay tame through any number of passes and calls. Differentiability of the Lorenz 96 step is `C53_step_differentiable` |
| C77 | Monte Carlo EP | Of a drawn sample only two facts are used: sample covariances are positive semidefinite, and the shapes of what the transform returns (`SamplesOn`). Schur complements decide acceptance of the first measurement update; an accepted one leaves an `n × n` shift, on which sampling for the next node raises. Induction over the forward half, with the state of the previous node as invariant. `Draw` is a fixed function of its arguments, see above: within one pass two calls with the same arguments draw the same numbers, which the proof does not use |
| C78 | simulated data | C51 (aliasing and the recursion of `simulate`) is instantiated with the functions of each system; `PointMap` says that a function maps a vector or a row to a vector or a row, which is what makes the in-place addition of noise succeed. The consequences for sweeps combine it with C74, whose measurements may be vectors or rows |
| C79 | sweeps of the iterated smoother | `Model/Scripts.lean` models the three scripts on the sqlite model of C45–C50 (printing left out; the file with the initial condition is a parameter, what the constructor saves is not read back within a run). Induction over the jobs gives the table and every intermediate content of the file; C76 and C78 make the jobs of the growth model total, and of Lorenz 96 up to scipy's eigenvalue cutoff |
| C80 | EP sweep over Lorenz 96 | `Model/EpL96.lean` models the script; plain `INSERT` raises on a repeated key and leaves the transaction open. A small logic of computations that append rows with given keys (`Lemmas/Journal.lean`) gives the order of keys; the first key of a run is always the same, so a rerun stops there. Two runs on nodes that differ in their measurements are compared step by step (`Lemmas/Blind.lean`): acceptance of an update depends on covariances only, an accepted update raises at the next node or, at the last node, when its mean is copied into `means`. As elsewhere the numbers drawn by a transform depend on its arguments only |
| C81 | damped power EP converges | For powers below one all factors keep nonnegative precision, also where a target is read through the `1e-10` threshold (`Chain.Tidy`). One pass moves each factor the fraction `damping` towards a target that depends on the factors of earlier (forward) or later (backward) nodes only (`Chain.Passed`); a sequence that moves a fixed fraction towards a convergent target follows it (`track`), so the forward factors converge by induction from the first node and the backward factors by induction from the last. `Lemmas/ScalarDamped.lean`, `Props/Damped.lean`. Power one with damping below one is not covered: there factors can become negative (C82) |
| C82 | power one and damping | Closed forms of the last marginal but one after the first pass, below and at power one; the forward parts agree for all powers. Same files |
| C83 | limits of the iterated smoother | `Spec/Markov.lean` defines the joint density of a trajectory and its measurements and its stationary points. The RTS means satisfy the normal equations of the linearised model (`StateSpace.Good.normal*`), so a sweep is the map `Markov.next` (`IEKS.sweep_next`, from C30), which is continuous where the functions are C¹; a limit is a fixed point, and at a fixed point the normal equations are the stationarity conditions of the model with tangents in place of transitions. The counterexample computes the iteration (a contraction on `[3, ∞)`) and all stationary trajectories. `Lemmas/Markov.lean`, `Lemmas/MarkovFixed.lean`, `Props/MapPoint.lean`. Whether the iteration converges is not claimed |
| C84 | the Kalman filter and smoother on affine systems | closed form of the runs (`Describes.filter`, `Describes.smoother`, extracted from C67). Covariances and gains do not mention data; means by induction. Differences are measured in the dual form `∀ u, abs (u·d) ≤ D √(uᵀPu)`; one step maps `d` to `C M⁻¹ A d`, and `C M⁻¹ A P Aᵀ M⁻¹ C ≤ θ C` with `θ = 1` always and `θ < 1` when `A P Aᵀ ≤ κ Q`; boundedness of the covariances from optimality of the Kalman gain against the observer; `C₁ − C₂ = Φ₁ (P₁ − P₂) Φ₂ᵀ`. `Lemmas/Forget.lean`, `Props/Forget.lean` |
| C85 | calibration and optimality on simulated data | `Spec/Calibrate.lean`: `FairDraws` is the contract of `np.random.multivariate_normal` that is assumed (first and second moments only), `Calibrated` and `LeastVariance` what is claimed. C78 gives the simulated trajectory, `Describes.filter`/`smoother` (C67) the closed form of the runs; `Lemmas/Calibrate.lean` propagates the second moments of the errors (Joseph form, orthogonality of the errors to the measurements), `Props/Calibrate.lean` concludes. `C85_normal_draws` shows that vectors built from independent standard normal numbers satisfy the contract |
| C86 | ordering of reported covariances | `Spec/Order.lean`: `Below`, `Conservative`, `Overconfident`, the changed models `withNoise` and `withSensors`. `Lemmas/Order.lean` writes the error of the smoother as a linear function of the noises with weights that depend on the assumed model only; the same weights with the assumed covariances give the reported covariance (by C85 for normal draws), with the true covariances the covariance of the error. Monotonicity follows from this bound and the optimality of C85 |
| C87 | steady state, fixed lag | `Spec/Steady.lean`: the algebraic Riccati equation. `Lemmas/Steady.lean`: the recursion forgets its start (C84), so it is a Cauchy sequence whose limit is a fixed point by continuity; the smoother gain contracts in units of the reported standard deviations |
| C88 | reported statistics | `Spec/Report.lean` writes the tables as lists of records (`Result`), for which `Props/Report.lean` says which records each section reports on; `Model/Display.lean` models the queries and statistics of `DisplayResults.py`; printed numbers are kept exact, `nan` is `none`. `Spec/Display.lean`: `Summary` (mean and population standard deviation by their equations). Uses C71, C79 and C80 for what the file holds, and an invariant of sweeps (`Only`: stored rows belong to settings of the sweep) |
| C89 | `remove_outliers` | `IsPercentile` says what an interpolated percentile is for any sorted rearrangement; the counts follow from the position of the quartiles among the sorted values |
| C90 | coordinates and units | `Spec/Coordinates.lean`: `Chart` (invertible affine change), `SameState`, `SameFunc`, `SameNoise`, and `Chart.restate`, which turns any system function into one in new coordinates by calling the old one, so the hypotheses can be met for every system. Transforms enter through `Carries` (restated function at the restated state gives the restated result), shown for Taylor from the chain rule and for the unscented transform from the uniqueness of triangular square roots. Expectation propagation is left out: its initial precision 1e-10 is a fixed number and not a property of the system, so the statement is false for it |
| C91 | `Model/EpTurn.lean`: `Experiments/EP_Sweep_BearingsOnly.py` with the two imported names taken from `EP_FullSweep.py` | `Spec/EpTurn.lean` writes rows and `WholePasses` out; `Lemmas/Groups.lean` generalises the plans of C48 to groups of rows with one commit per group; whole passes are an invariant of every content of the file, for arbitrary draws |
| C92, C93 | `Model/Plot.lean`: `Utils/Plot_Helper.py` as functions from data to drawing commands; nan is `none` | probability of ±1.96 by integrating a Taylor polynomial of the density with an error bound (`Lemmas/Band.lean`); first component by the Cholesky factor; coverage: errors of filter and smoother are combinations of draws (`Combination`), which are normal (`NormalDraws`, shown for independent standard normals), with the variance of C85 |
| C94 | filter, smoother, simulation and metrics as above; a competing method is any measurable function of the measurements it may use (`Spec/Score.lean`) | with normal draws the error of filter and smoother is independent of the measurements used (`Lemmas/Indep.lean`, characteristic functions), so the expected score given the measurements is that of a shifted centred error; `log det C + n ≤ log det D + tr(D⁻¹M)` for `C ≤ M` (`Lemmas/Gibbs.lean`); means of a mistuned filter are affine in the measurements (`Lemmas/Affine.lean`), so C85 applies to them |
| C95 | Taylor and unscented transform, `predict`; functions of bounded change of slope and random vectors with given moments in `Spec/Curvature.lean` | the linearisation misses at most `K/2 |x - m|²` (mean value argument along the segment); its moments by Cauchy–Schwarz; the unscented moments are those of the linearisation plus weighted remainders, the centre contributing `(beta - alpha²)` times their products (`Lemmas/CurvatureUT.lean`) |
| C96 | `UT.sigmaPoints`, `jitteredCholU` | both attempts at the factor decided by positive definiteness of the symmetric part and of the enlarged matrix; the affine case reduces to C15 |
| C97 | `getChol`, `spCholeskyL`, setters | existence and uniqueness of the factor from `Lemmas/Cholesky.lean`; the cache by unfolding the getter |
| C98 | `kalmanFilter`, `iekf`, `IEKS.call`, `nodeSystem`; shapes in `Spec/Shapes.lean` | every method squeezes each measurement first; induction over the list |
| C99 | `taylorDataLikelihood`, `taylorProject` | the C17 linearisation put into the density formula of C64; rank of `J P Jᵀ` at most the number of states |
| C100 | `Gaussian.init`, getters, `copy`, `shown` | unfolding; for all four parameters an invariant over read histories (`None` in a product is reported before the other operand is read, so the claims ask for the other operand to be readable) |
| C101 | `Gaussian.mul`, `truediv`, `eq` | broadcasting lemmas for axes of length one; the quadratic form of a constant matrix is a square of the sum |
| C102 | `fwd_update`, `meas_update`, `back_update`, `power_update`, iterations | a factor is only written by its own update, so it must be back already after that update; then the ratio has parameters zero; array shapes of marginals only grow, so returning to the old shape means they never grew |
| C103 | `fwd_update`, `meas_update`, `back_update`, `validate_covariance`, `natural_to_moment` | a call leaves the marginal of a node or replaces it by a product that passed the check; `natural_to_moment` returns a symmetric matrix for every precision array, so the check of the lower triangle decides about the whole matrix; shapes of precisions only grow |
| C104 | `node_estimator`, `node_system`, the iterations | `node_estimator` and `node_system` write different attributes; the attributes missing on a node stay missing under all updates (C35); two graphs that agree on the first nodes behave the same under forward and measurement updates, so the forward sweep with too few measurements is that of the complete graph (C66) |
| C105 | `predict`, the measurement transform and `nll` as a user calls them between the steps of `kalman_filter`; `simulate` | the evidence of C67 in closed form is a product over the predicted measurements; innovations are `H` times the prediction error plus the noise, and the corrected error is uncorrelated with the innovation (gain equation), hence so is everything later |
| C106 | `correct` and `predict` called repeatedly by a user, with a filter object per sensor or step length | information form of C21: every correction adds a fixed matrix and vector to the natural parameters, sums commute; predictions compose by matrix algebra and C56 |
| C107 | as C85 and C105, with jointly normal draws (C92) | errors and innovations are combinations of the draws; multiplied by a root of the inverse covariance they are uncorrelated with variance one, and uncorrelated jointly normal numbers are independent |
| C108 | `Model/Notebooks.lean`: queries without `ORDER BY` in either of two orders (insertion, index), the loops over seeds, `reshape(19, 19)`, `imshow` as the matrix of pixels; ragged arrays and averages of nothing are `outOfModel` | `Spec/Notebooks.lean`: `AfterRuns`, files after any runs and kills. `Lemmas/Keeps.lean`: a statement about the rows that every prefix of the inserts of a setting keeps holds in every file at every moment. Kept here: the rows of every setting are numbered 1, 2, … in order of insertion (a repeated run skips stored iterations and appends the rest). Index order is the same order, by insertion sort of a sorted list. Heat maps: exact list of rows of a complete sweep |
| C109 | `Model/Demo.lean`: the cells as one program on the heap; `deepcopy` allocates new nodes and moves references between copied nodes; `np.array` of vectors of one length | `Spec/Demo.lean`: curves and band picture of given estimates. Composition of C40 (first pass, filter, smoother), C66/C71 (passes in plain numbers), C58/C64 (scores), C92/C93 (pictures); the loop by induction on the heap, whose passes touch the original nodes only. Pictures need means of one shape, which C110 gives |
| C110 | `Model/Nodes.lean`, `Model/Estimator.lean` via the recursion `Chain` of C66 | `SoundPrecisions` in `Props/Precisions.lean`, on the precisions read from the objects. Invariant `Tidy` (marginal = product of factors to the power 1/α, factors nonnegative) of every update: projections never increase the variance of the cavity, since the target of a backward update is at least as precise as the prediction (for power one only if the forward factor is the present prediction, hence the order of a pass). Counterexample for damping with power one |
| C111 | `Model/Kalman.lean` | `Spec/Moves.lean`: `Surprise` (normalised squared innovation, read off the calls of predict and the transform) and `MovesAtMost`. Correction: Cauchy-Schwarz in the inverse innovation covariance. Smoother: moves compose (`(a+b)² ≤ (A+B)(s+t)`) and are carried over by the linear smoothing gain; induction from the end as in C75 |
| C112 | `Model/Kalman.lean`, `Model/Nodes.lean` via the recursions of C40 and C66 | `Chain.Contracts`: the condition on the predicted variance. Filter and smoother by induction (corrections and smoothing do not increase variances); EP: after a pass every forward factor has precision at least power/B, and the invariant `Tidy` of C110 makes it a lower bound for the marginal. Growth model: the three sigma points of a linear function plus a function bounded by 12.5; the gain of the squared measurement never exceeds 2/3 |
| C113 | `Model/Adapters.lean` | what the file holds (`InFile`) and the converters by declared type; columns by cases, tables by induction over rows, simulated data through C78 and the insertion lemmas of C46. Assumed: `np.load` undoes `np.save`, `pickle.loads` undoes `pickle.dumps`, and neither reads the other's bytes or the text of a number |
| C114 | `Model/Kalman.lean` via the closed forms of C67 | information form of a correction (`condCov_inv`), inversion reverses the order (`quad_inv_le`), optimality of the gain (`condCov_optimal`); nonlinear systems step by step through `Slopes` (what the Taylor transform returns) |
| C115 | `Model/Kalman.lean`, `Model/Nodes.lean` via the recursions of C40 and C66 | a moment matched correction adds at most `a²/R` to a precision (`added_le`); hence `Capped`, an upper bound on the precision of each of the three factors of a node, is kept by every update (beside the invariant `Tidy` of C110) |
| C116 | `Model/Systems.lean`, `L96.f` | `Lemmas/RungeKutta.lean`: for quadratic fields the step is expanded exactly to the fourth power of the step size plus a rest; Taylor's formula for solutions by repeated mean value bounds; stability of the step on balls; existence by Picard-Lindelöf and the energy bound; instability of large steps from the closed form on constant states |
| C117 | `Model/Systems.lean`, `Model/Kalman.lean` via C78, C40 and C112; draws as in C85 (`FairDraws`) | `Props/GrowthErrors.lean`: states and means of the filter are dominated run by run by recursions in the squares of the drawn numbers, whose expectations stay bounded. The expectation is an integral in `[0, ∞]`, so that measurability of the filter plays no role |
| C118 | `Model/Kalman.lean` and the Taylor transform via the recursions of C40 (`ModelsKFS` now covers transforms that return the mean as a number) | `Props/GrowthExtended.lean`: the bound is that of C112. For the growth model measurements are constructed step by step: each makes the filter report the state from which the next prediction is near zero (intermediate value theorem), where the slope is at least 12 and measurements carry hardly any information |
| C119 | `Model/Kalman.lean` and `mcTransform`; the draws are a function of the number of samples, the mean and the covariance of a call | `Props/MonteCarloFilter.lean`: success and the moments as recursions over sample means and covariances (C18); convergence by induction over the steps for `Faithful` draws (continuity of the inverse, openness of positive definiteness), the limits being the posteriors of C67. `C119_normal_draws` proves draws from finitely many streams of standard normal vectors faithful almost surely by the strong law, uniformly over means, covariances and roots. As in C69, the draws for `N` samples are the first `N` of a sequence; which stream a call uses is arbitrary, so that different calls may use fresh numbers. Negative variances: two samples far apart have positive probability |
| C120 | `Model/Kalman.lean`; sequences of filter objects, each with its own functions, transforms, noise, prior, control and start time | `Props/Continuity.lean`: `ExactInLimit` and `Approaches` state the hypotheses in terms of transform results; convergence by induction over the steps (continuity of the inverse, openness of positive definiteness), the limits being the posteriors of C67. `C120_exact`, `C120_systems`, `C120_monte_carlo`, `C120_taylor` and `C120_unscented` establish the hypotheses for the transforms of the repository; no rate of convergence is claimed, and the number of measurements is fixed while the limit is taken |
| C121 | `Model/Kalman.lean`, `Model/Transforms.lean`; families of filter objects indexed by a topological space | `Props/Perturbation.lean`: `VariesContinuously` and `ContinuousProblem` state the hypotheses; induction over the steps with continuity of the inverse. `C121_taylor` and `C121_unscented` establish them for the transforms (`Lemmas/CholeskyLimits.lean`: the Cholesky factor is a continuous function of the matrix), `C121_compact` gives uniform bounds. `growth_continuous` is the growth model of the repository, `C121_lorenz` (`Props/PerturbationL96.lean`) Lorenz 96. `Props/PerturbationIEKF.lean` treats the iterated filter (`C121_iekf`) and Taylor transforms of functions that return rows. `Props/PerturbationIEKS.lean` treats the iterated smoother (`C121_ieks`): functions linearised at continuously varying points stay continuously differentiable, so each sweep keeps the results continuous, and so do later calls of the same object, which start from stored linearised functions. `C121_growth_ieks` (`Props/PerturbationGrowth.lean`) instantiates this for the growth model and derives bounds by compactness; they depend on the number of measurements and iterations. `C121_lorenz_ieks` (`Props/PerturbationL96IEKS.lean`) is the instance for Lorenz 96, where the Runge-Kutta step is shown to be continuously differentiable jointly in time step, forcing and state. No modulus of continuity is claimed; the Monte Carlo transform is not instantiated |
| C65 | the above with the Taylor transform, composed with the sweep and the database | execution of the first pass on symbolic data; `CorrectSquareJac`: autograd returns shape (1,1,1,1) for functions between (1,1) arrays |
| C45–C50 | database with commit/crash, `ep_iterations`, `full_sweep` | refinement to an abstract first-write-wins map; induction over crash points |
| C51 | `simulate` over a heap of arrays | induction on N |
| C52–C57, C62, C63 | system models | real analysis / trigonometric identities / finite sums |
| C61 | Taylor transform + `correct` | shape analysis |
| C63 (filter) | Kalman correction with `bearings` | `Props/BearingWrap.lean`: `C63_wrap` for any transform; `C63_wrap_ekf` shows the gain of a bearing is never zero, as its derivative along a turn around the sensor is one |
| C58–C60 | metrics, `select_transform` | list / finite sum algebra |
| C64 | `Gaussian.nll` through `scipy.stats.multivariate_normal.logpdf` | Cholesky change of variables, Fubini, the Gaussian integral |

Properties that turn out to be false of the code are kept with their full statement; the true part is proved as
`…_partial` and the failure is proved by a counterexample theorem (`…_counterexample`/`…_fails`). Findings are listed in section 4.

## 3. Trusted base

Lean's kernel; the axioms `propext`, `Classical.choice`, `Quot.sound` (checked for every theorem in MANIFEST with
`#print axioms`); the reading of the Python code and of the numpy/scipy/sqlite contracts listed above.

## 4. Findings (disagreements between code and expected behaviour)

Each is proved as a theorem unless marked (reading).

* C27 `IEKF._iterated_update`: the predicted measurement is `h(m) - H (x - m)` where the iterated filter needs `+`; only
  the first iteration (`m = x`) is right.
* C28–C30 `IEKS`: on affine systems every `num_iter` gives the same result (C28); the object keeps the functions linearised by
  the last pass, so a second call with other measurements starts from them (C29); the transition from step `i-1` to `i` is linearised at the
  estimate of state `i` where the method needs state `i-1` (C30).
* C26 `kalman_smoother` starts its clock at `(N-1) dt` whatever `t_zero` the filter was given.
* C17, C61 the Taylor transform squeezes every axis of length one: a single bearing sensor makes the EKF raise.
* C41 `proj_meas` adds a vector of shape `(n,)` to a column `(n,1)`, giving an `(n,n)` "mean" for `n ≥ 2`: expectation
  propagation can only be run on one-dimensional states with the unscented transform.
* C65 with the Taylor transform EP raises `ValueError` already on scalar states; the default run of `EP_FullSweep` (growth model, first
  transform `TT`) therefore dies in its first setting, and the simulated rows are lost.
* C44 `Node.copy` shares the update closures of the original.
* C47 `override=True` recomputes but never replaces a stored row.
* C48, C50 the skip test of `full_sweep` hard-codes `Iter = 50`: shorter sweeps are always recomputed, longer ones that die between
  iteration 50 and the end are never completed.
* C49 simulated data is only committed by a later `ep_iterations`.
* C58 `rmse` of a mean `(n,)` against a column `(n,1)` silently sums over all pairs of components.
* C51 `simulate` adds noise in place; a transition returning its argument corrupts earlier states.
* C52 `GaussianNoise(mean=…)` forgets the mean.
* C53 the L96 drift is the mirror image of the README's formula. C54 L96 cannot be built without a stored initial
  condition; `generate_L96_initial_condition` spins up with `F = 8` whatever `F` is given, and `EP_FullSweep -d L96` names a file that
  is not in the repository (reading).
* C63 innovations of bearings are not wrapped.
* (reading) `BearingsOnlyTracking`, `BearingsOnlyTrackingTurn`, `L96` do not pass `dt` to the base class, whose `dt` stays 1;
  `EP_Sweep_BearingsOnly` imports the nonexistent module `Experiments.FullSweep`; `TestDynamics` fails for `u=None`, the default of
  `kalman_filter`; the growth model fails for `t=None`; `UnscentedTransform` uses `np.float`, gone since numpy 1.24; EP calls the
  measurement function without a time.
