import Verif.Props.Gaussian
import Verif.Props.LinAlg
import Verif.Props.Transforms
import Verif.Props.Kalman
import Verif.Props.Filter
import Verif.Props.IEKF
import Verif.Props.IEKS
import Verif.Props.Nodes
import Verif.Props.Graph
import Verif.Props.Invariant
import Verif.Props.Systems
import Verif.Props.L96
import Verif.Props.Simulation
import Verif.Props.Bearings
import Verif.Props.Damped
import Verif.Props.Database
import Verif.Props.Metrics
import Verif.Props.Likelihood
import Verif.Props.Estimator
import Verif.Props.Shapes
import Verif.Props.DefaultSweep
import Verif.Props.FirstPass
import Verif.Props.Posterior
import Verif.Props.Accuracy
import Verif.Props.Sampling
import Verif.Props.Power
import Verif.Props.GrowthSweep
import Verif.Props.Even
import Verif.Props.MonteCarlo
import Verif.Props.Multi
import Verif.Props.Total
import Verif.Props.Trajectory
import Verif.Props.IeksSweep
import Verif.Props.EpL96
import Verif.Spec.Markov
import Verif.Lemmas.Markov
import Verif.Lemmas.MarkovFixed
import Verif.Props.MapPoint
import Verif.Lemmas.Forget
import Verif.Props.Forget
import Verif.Spec.Calibrate
import Verif.Lemmas.Calibrate
import Verif.Props.Calibrate
import Verif.Props.Order
import Verif.Props.Steady
import Verif.Model.Display
import Verif.Spec.Display
import Verif.Props.Outliers
import Verif.Props.Display
import Verif.Spec.Coordinates
import Verif.Props.Coordinates
import Verif.Props.CoordinatesRules
import Verif.Props.CoordinatesIterated
import Verif.Props.CoordinatesScores
import Verif.Model.EpTurn
import Verif.Spec.EpTurn
import Verif.Lemmas.Groups
import Verif.Lemmas.EpTurn
import Verif.Props.EpTurn
import Verif.Model.Plot
import Verif.Spec.Plot
import Verif.Lemmas.Band
import Verif.Props.Plot
import Verif.Spec.Score
import Verif.Lemmas.Combination
import Verif.Lemmas.Indep
import Verif.Lemmas.Gibbs
import Verif.Lemmas.Affine
import Verif.Lemmas.Score
import Verif.Props.Score
import Verif.Spec.Report
import Verif.Props.Report
import Verif.Spec.Curvature
import Verif.Lemmas.Curvature
import Verif.Lemmas.CurvatureUT
import Verif.Props.Jacobian
import Verif.Props.Curvature
import Verif.Spec.Shapes
import Verif.Props.Fallback
import Verif.Props.Resume
import Verif.Model.TaylorLikelihood
import Verif.Props.TaylorLikelihood
import Verif.Model.Printing
import Verif.Props.Incomplete
import Verif.Spec.Stationary
import Verif.Lemmas.Stationary
import Verif.Props.Stationary
import Verif.Spec.Proper
import Verif.Props.Proper
import Verif.Props.Assign
import Verif.Props.UnscentedSign
import Verif.Props.Conditioning
import Verif.Props.IekfLimit
import Verif.Props.IekfVector
import Verif.Spec.Quadratic
import Verif.Lemmas.Isserlis
import Verif.Props.Quadratic
import Verif.Props.Setup
import Verif.Props.Innovations
import Verif.Props.TestSystem
import Verif.Props.Fusion
import Verif.Props.ChiSquare
import Verif.Props.Notebooks
import Verif.Props.Precisions
import Verif.Props.Demo
import Verif.Props.Moves
import Verif.Props.Bounded
import Verif.Props.Adapters
import Verif.Props.Floor
import Verif.Props.FloorExtended
import Verif.Props.FloorPasses
import Verif.Lemmas.RungeKutta
import Verif.Props.L96Step
import Verif.Props.GrowthErrors
import Verif.Props.GrowthExtended
import Verif.Props.MonteCarloFilter
import Verif.Props.Continuity
import Verif.Lemmas.CholeskyLimits
import Verif.Props.Perturbation
import Verif.Props.BearingWrap
import Verif.Props.PerturbationL96
import Verif.Props.PerturbationIEKF
import Verif.Props.PerturbationIEKS
import Verif.Props.PerturbationGrowth
import Verif.Props.PerturbationL96IEKS
