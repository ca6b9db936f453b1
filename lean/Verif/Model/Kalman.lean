import Verif.Model.Transforms
import Verif.Model.PyM

/-!
# `Filters/KalmanFilter.py`
-/

namespace Verif

/-- A transition or measurement function `func(x, t, u)`; `t` and `u` may be `None`. -/
abbrev SysFunc := Arr → Option ℝ → Option ℝ → Py Arr

/-- `g.copy()` seen as a value (`StateModel/Gaussian.py:267-271`); the reads it performs only fill caches of the original. -/
noncomputable def Gaussian.copyV (env : Env) (g : Gaussian) : Py Gaussian := (g.copy env).1

/-- The attributes of a `KalmanFilterSmoother` (`Filters/KalmanFilter.py:39-52`). -/
structure KFS where
  transform : Transform
  measTransform : Transform
  transition : SysFunc
  measurement : SysFunc
  Q : Arr
  R : Arr
  initState : Gaussian
  dt : ℝ

/-- The part of a system model the filters read (`Systems/DynamicSystem.py`, `Filters/KalmanFilter.py:47-52`). -/
structure Sys where
  transition : SysFunc
  measurement : SysFunc
  Q : Arr
  R : Arr
  initState : Gaussian
  dt : ℝ

namespace KFS

/-- `KalmanFilterSmoother.__init__` (`Filters/KalmanFilter.py:39-52`). -/
def init (transform : Transform) (sys : Sys) (measTransform : Option Transform) : KFS :=
  { transform := transform
    measTransform := measTransform.getD transform
    transition := sys.transition
    measurement := sys.measurement
    Q := sys.Q
    R := sys.R
    initState := sys.initState
    dt := sys.dt }

/-- `predict` (`Filters/KalmanFilter.py:54-58`). -/
noncomputable def predict (k : KFS) (prior : Gaussian) (t u : Option ℝ) : Py Gaussian := do
  let (mean, cov, _) ← k.transform (fun x => k.transition x t u) prior
  let cov ← cov.iadd k.Q
  return Gaussian.ofMoment mean cov

/-- `correct` (`Filters/KalmanFilter.py:60-72`). -/
noncomputable def correct (env : Env) (k : KFS) (state : Gaussian) (meas : Arr) (t u : Option ℝ) : Py Gaussian := do
  let (zMean, zCov, cross) ← k.measTransform (fun x => k.measurement x t u) state
  let zCov ← zCov.iadd k.R
  let gain := (← npSolve zCov cross.T).T
  let meas := meas.atleast1d
  let mean ← (← state.meanA env).add (← gain.dot (← meas.sub zMean))
  let cov ← (← state.covA env).sub (← gain.dot cross.T)
  return Gaussian.ofMoment mean cov

/-- `smooth` (`Filters/KalmanFilter.py:74-84`). -/
noncomputable def smooth (env : Env) (k : KFS) (state next : Gaussian) (t u : Option ℝ) : Py Gaussian := do
  let (xMean, xCov, cross) ← k.transform (fun x => k.transition x t u) state
  let xCov ← xCov.iadd k.Q
  let J := (← npSolve xCov cross.T).T
  let mean ← (← state.meanA env).add (← J.dot (← (← next.meanA env).sub xMean))
  let cov ← (← state.covA env).add (← (← J.matmul (← (← next.covA env).sub xCov)).matmul J.T)
  return Gaussian.ofMoment mean cov

/-- The loop of `kalman_filter` (`Filters/KalmanFilter.py:96-104`) from the current prior state and time. -/
noncomputable def filterLoop (env : Env) (k : KFS) (u : Option ℝ) : Gaussian → ℝ → List Arr → Py (List Gaussian)
  | _, _, [] => .ok []
  | prior, t, y :: ys => do
    let pred ← k.predict prior (some t) u
    let corrected ← k.correct env pred y.squeeze (some t) u
    let rest ← filterLoop env k u corrected (t + k.dt) ys
    return corrected :: rest

/-- `kalman_filter` (`Filters/KalmanFilter.py:86-104`). -/
noncomputable def kalmanFilter (env : Env) (k : KFS) (measurements : List Arr) (prior : Option Gaussian) (tZero : ℝ)
    (u : Option ℝ) : Py (List Gaussian) :=
  k.filterLoop env u (prior.getD k.initState) tZero measurements

/-- The loop of `kalman_smoother` (`Filters/KalmanFilter.py:115-119`) over the remaining reversed filter results; returns the results
in the order they are appended. -/
noncomputable def smoothLoop (env : Env) (k : KFS) (u : Option ℝ) : Gaussian → ℝ → List Gaussian → Py (List Gaussian)
  | _, _, [] => .ok []
  | next, t, state :: states => do
    let smoothed ← k.smooth env state next (some t) u
    let next ← smoothed.copyV env
    let rest ← smoothLoop env k u next (t - k.dt) states
    return smoothed :: rest

/-- `kalman_smoother` (`Filters/KalmanFilter.py:106-121`). -/
noncomputable def kalmanSmoother (env : Env) (k : KFS) (filtered : List Gaussian) (u : Option ℝ) : Py (List Gaussian) :=
  match filtered.reverse with
  | [] => .error .stopIteration
  | last :: states => do
    let next ← last.copyV env
    let rest ← k.smoothLoop env u next (((filtered.length : ℝ) - 1) * k.dt) states
    return (next :: rest).reverse

/-- One pass of the loop in `IEKF._iterated_update` (`Filters/KalmanFilter.py:137-148`): `x`, `P` are the moments of the predicted
state, `state` the current iterate. -/
noncomputable def iekfStep (env : Env) (jac : Jac) (k : KFS) (x P : Arr) (meas : Arr) (t u : Option ℝ) (state : Gaussian) :
    Py Gaussian := do
  let m ← state.meanA env
  let h ← (← k.measurement m t u).idx0
  let H ← (← (← jac (fun z => k.measurement z t u) m).idx0).toArr
  let zMean ← h.sub (← H.matmul (← x.sub m))
  let zCov ← (← (← H.matmul P).matmul H.T).add k.R
  let cross ← P.matmul H.T
  let gain := (← npSolve zCov cross.T).T
  let meas := meas.atleast1d
  let mean ← x.add (← gain.dot (← meas.sub zMean))
  let cov ← P.sub (← gain.dot cross.T)
  return Gaussian.ofMoment mean cov

/-- Repeats `step` `n` times (`for i in range(n)`). -/
def iterate (step : Gaussian → Py Gaussian) : ℕ → Gaussian → Py Gaussian
  | 0, g => .ok g
  | n + 1, g => do iterate step n (← step g)

/-- `IEKF._iterated_update` (`Filters/KalmanFilter.py:133-150`) with `self.num_iter = numIter`. -/
noncomputable def iteratedUpdate (env : Env) (jac : Jac) (k : KFS) (numIter : ℕ) (state : Gaussian) (meas : Arr)
    (t u : Option ℝ) : Py Gaussian := do
  let x ← state.meanA env
  let P ← state.covA env
  iterate (k.iekfStep env jac x P meas t u) numIter state

/-- The loop of `IEKF.__call__` (`Filters/KalmanFilter.py:162-170`). -/
noncomputable def iekfLoop (env : Env) (jac : Jac) (k : KFS) (numIter : ℕ) (u : Option ℝ) :
    Gaussian → ℝ → List Arr → Py (List Gaussian)
  | _, _, [] => .ok []
  | prior, t, y :: ys => do
    let pred ← k.predict prior (some t) u
    let corrected ← k.iteratedUpdate env jac numIter pred y.squeeze (some t) u
    let rest ← iekfLoop env jac k numIter u corrected (t + k.dt) ys
    return corrected :: rest

/-- `IEKF.__call__` (`Filters/KalmanFilter.py:152-170`) of an `IEKF` object, which is a `KalmanFilterSmoother` with the Taylor
transform (lines 129-131). -/
noncomputable def iekf (env : Env) (jac : Jac) (k : KFS) (measurements : List Arr) (numIter : ℕ) (prior : Option Gaussian)
    (tZero : ℝ) (u : Option ℝ) : Py (List Gaussian) :=
  k.iekfLoop env jac numIter u (prior.getD k.initState) tZero measurements

end KFS

namespace Tensor

/-- `t @ a` for a Jacobian `t` of rank at most three and an array `a`: a stack of matrices times a vector is the stack of the
products (`np.matmul`).  A stack times a matrix has rank three and is outside the model. -/
def matmulArr (t : Tensor) (a : Arr) : Py Arr :=
  match t.shape with
  | [b, k, n] =>
    match a with
    | @Arr.v n' x =>
      if h : n = n' then
        .ok (.m (Matrix.of fun (i : Fin b) (j : Fin k) => ∑ l : Fin n, t.get [i, j, l] * x (Fin.cast h l)))
      else .error .value
    | .s _ => .error .value
    | .m _ => .error .outOfModel
  | _ => do (← t.toArr).matmul a

end Tensor

/-! ## The iterated extended Kalman smoother -/

/-- The mutable attributes of an `IEKS` object: `self.transition`, `self.measurement`, `self.f_list`, `self.h_list`
(`Filters/KalmanFilter.py:178-184`, `201-202`, `223`, `240-241`, `250-251`).  The lists do not exist before the first call; an
empty list stands for that. -/
structure IEKSState where
  transition : SysFunc
  measurement : SysFunc
  fList : List SysFunc := []
  hList : List SysFunc := []

/-- The attributes of an `IEKS` object that never change: everything of the `KalmanFilterSmoother`, where the fields `transition` and
`measurement` hold `self.f` and `self.h` (`Filters/KalmanFilter.py:178-184`). -/
abbrev IEKS := KFS

namespace IEKS

/-- `IEKS.__init__` (`Filters/KalmanFilter.py:178-184`). -/
noncomputable def init (env : Env) (jac : Jac) (sys : Sys) : IEKS × IEKSState :=
  (KFS.init (taylorTransform env jac) sys none, { transition := sys.transition, measurement := sys.measurement })

/-- The object's filter with the functions currently stored in it. -/
def current (k : IEKS) (s : IEKSState) : KFS := { k with transition := s.transition, measurement := s.measurement }

/-- `_linearise(func, Df, x0)` (`Filters/KalmanFilter.py:186-188`); `Df = jacobian(func, argnum=0)`. -/
noncomputable def linearise (jac : Jac) (func : SysFunc) (x0 : Arr) : SysFunc := fun x t u => do
  let f0 ← func x0 t u
  let D ← jac (fun z => func z t u) x0
  f0.add (← D.matmulArr (← x.sub x0))

/-- `[self._linearise(func, Df, state.mean) for state in smoother_results]` (`Filters/KalmanFilter.py:240-241`, `250-251`). -/
noncomputable def lineariseAll (env : Env) (jac : Jac) (func : SysFunc) (states : List Gaussian) : Py (List SysFunc) :=
  states.mapM fun g => do return linearise jac func (← g.meanA env)

/-- `l[i]`. -/
def getItem {α : Type} (l : List α) (i : ℕ) : Py α :=
  match l[i]? with
  | some a => .ok a
  | none => .error .index

/-- The loop of `_kalman_filter` (`Filters/KalmanFilter.py:200-210`) from index `i`. -/
noncomputable def filterLoop (env : Env) (k : IEKS) : ℕ → Gaussian → ℝ → List Arr → PyM IEKSState (List Gaussian)
  | _, _, _, [] => pure []
  | i, prior, t, y :: ys => do
    let f ← PyM.lift (getItem (← PyM.get).fList i)
    PyM.modify fun s => { s with transition := f }
    let h ← PyM.lift (getItem (← PyM.get).hList i)
    PyM.modify fun s => { s with measurement := h }
    let s ← PyM.get
    let pred ← PyM.lift ((k.current s).predict prior (some t) none)
    let corrected ← PyM.lift ((k.current s).correct env pred y.squeeze (some t) none)
    let rest ← filterLoop env k (i + 1) corrected (t + k.dt) ys
    return corrected :: rest

/-- The loop of `_kalman_smoother` (`Filters/KalmanFilter.py:222-228`); the list is the remaining reversed filter results, so the index
`i` is the number of states left. -/
noncomputable def smoothLoop (env : Env) (k : IEKS) : Gaussian → ℝ → List Gaussian → PyM IEKSState (List Gaussian)
  | _, _, [] => pure []
  | next, t, state :: states => do
    let f ← PyM.lift (getItem (← PyM.get).fList (states.length + 1))
    PyM.modify fun s => { s with transition := f }
    let s ← PyM.get
    let smoothed ← PyM.lift ((k.current s).smooth env state next (some t) none)
    let next ← PyM.lift (smoothed.copyV env)
    let rest ← smoothLoop env k next (t - k.dt) states
    return smoothed :: rest

/-- `_kalman_smoother` (`Filters/KalmanFilter.py:212-230`). -/
noncomputable def smoother (env : Env) (k : IEKS) (filtered : List Gaussian) : PyM IEKSState (List Gaussian) :=
  match filtered.reverse with
  | [] => PyM.raise .stopIteration
  | last :: states => do
    let next ← PyM.lift (last.copyV env)
    let rest ← smoothLoop env k next (((filtered.length : ℝ) - 1) * k.dt) states
    return (next :: rest).reverse

/-- The assignments of lines 240-241 and 250-251. -/
noncomputable def relinearise (env : Env) (jac : Jac) (k : IEKS) (states : List Gaussian) : PyM IEKSState Unit := do
  let fl ← PyM.lift (lineariseAll env jac k.transition states)
  PyM.modify fun s => { s with fList := fl }
  let hl ← PyM.lift (lineariseAll env jac k.measurement states)
  PyM.modify fun s => { s with hList := hl }

/-- The loop of `__call__` (`Filters/KalmanFilter.py:243-251`), `n` iterations. -/
noncomputable def sweeps (env : Env) (jac : Jac) (k : IEKS) (measurements : List Arr) :
    ℕ → List Gaussian → PyM IEKSState (List Gaussian)
  | 0, states => pure states
  | n + 1, _ => do
    let filtered ← filterLoop env k 0 k.initState 0 measurements
    let states ← smoother env k filtered
    relinearise env jac k states
    sweeps env jac k measurements n states

/-- `IEKS.__call__` (`Filters/KalmanFilter.py:232-253`). -/
noncomputable def call (env : Env) (jac : Jac) (k : IEKS) (measurements : List Arr) (numIter : ℕ) :
    PyM IEKSState (List Gaussian) := do
  let s ← PyM.get
  let filtered ← PyM.lift ((k.current s).kalmanFilter env measurements none 0 none)
  let states ← PyM.lift ((k.current s).kalmanSmoother env filtered none)
  relinearise env jac k states
  sweeps env jac k measurements (numIter - 1) states

end IEKS

end Verif
