import Verif.Model.Transforms

/-!
# `MomentMatching/Estimator.py`
-/

namespace Verif

/-- The attributes of an `Estimator` (`MomentMatching/Estimator.py:34-46`).  The noise covariances default to `None`. -/
structure Estimator where
  transMap : Transform
  measMap : Transform
  Q : Option Arr
  R : Option Arr
  power : ℝ
  damping : ℝ

namespace Estimator

/-- `proj_trans` (`MomentMatching/Estimator.py:48-60`). -/
noncomputable def projTrans (e : Estimator) (func : Func) (state : Gaussian) : Py Gaussian := do
  let (xMean, xCov, _) ← e.transMap func state
  let xCov ← xCov.iadd (← need .type e.Q)
  let xCov ← xCov.divS e.power
  let xCov ← symmetrize xCov
  npCholesky xCov
  return Gaussian.ofMoment xMean xCov

/-- `proj_meas` (`MomentMatching/Estimator.py:62-81`). -/
noncomputable def projMeas (env : Env) (e : Estimator) (func : Func) (state : Gaussian) (meas : Arr) : Py Gaussian := do
  let meas := meas.atleast1d
  validateCovariance env state  -- line 69 does literally the same as `validate_covariance`
  let (zMean, zCov, cross) ← e.measMap func state
  let zCov ← zCov.iadd (← (← need .type e.R).divS e.power)
  let zCov ← symmetrize zCov
  npCholesky zCov
  let gain := (← npSolve zCov cross.T).T
  let mean ← (← state.meanA env).add (← gain.matmul (← meas.sub zMean).reshapeCol)
  let cov ← (← state.covA env).sub (← gain.matmul cross.T)
  let cov ← symmetrize cov
  return Gaussian.ofMoment mean cov

open Classical in
/-- The target moments of `proj_back` (`MomentMatching/Estimator.py:95-101`). -/
noncomputable def target (env : Env) (e : Estimator) (xMean xCov : Arr) (nextFwdCavity : Gaussian)
    (nextState : Option Gaussian) : Py (Arr × Arr) :=
  match (if e.power = 1 then nextState else none) with
  | some next => do
    let mu ← next.meanA env
    let Sigma ← next.covA env
    return (mu, Sigma)
  | none => do
    let q ← (Gaussian.ofMoment xMean xCov).mul env (← nextFwdCavity.pow env e.power)
    let mu ← q.meanA env
    let Sigma ← q.covA env
    return (mu, Sigma)

/-- `proj_back` (`MomentMatching/Estimator.py:83-106`). -/
noncomputable def projBack (env : Env) (e : Estimator) (func : Func) (state nextFwdCavity : Gaussian)
    (nextState : Option Gaussian) : Py Gaussian := do
  let (xMean, xCov, cross) ← e.transMap func state
  let xCov ← xCov.iadd (← (← need .type e.Q).divS e.power)
  let xCov ← symmetrize xCov
  let J := (← npSolve xCov cross.T).T
  let (mu, Sigma) ← e.target env xMean xCov nextFwdCavity nextState
  let mean ← (← state.meanA env).add (← J.dot (← mu.sub xMean))
  let cov ← (← state.covA env).add (← (← J.matmul (← Sigma.sub xCov)).matmul J.T)
  let cov ← symmetrize cov
  return Gaussian.ofMoment mean cov

end Estimator

end Verif
