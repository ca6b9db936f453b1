import Verif.Model.Metrics
import Verif.Model.Database

/-!
# `ep_iterations` (`ExpectationPropagation/Iterations.py`) and `Experiments/EP_FullSweep.py`
-/

namespace Verif

/-! ## `ep_iterations` -/

/-- What `ep_iterations` works on: the node objects and the database connection. -/
structure World where
  heap : Heap
  conn : Conn

/-- A computation on the nodes. -/
def World.onHeap {α : Type} (x : PyM Heap α) : PyM World α := fun w => ((x w.heap).1, { w with heap := (x w.heap).2 })

/-- A computation on the database. -/
def World.onConn {α : Type} (x : PyM Conn α) : PyM World α := fun w => ((x w.conn).1, { w with conn := (x w.conn).2 })

/-- The loop of `ep_iterations` (`ExpectationPropagation/Iterations.py:49-67`) for the remaining number of passes; printing is left
out. -/
noncomputable def epIterationsLoop (env : Env) (nodes : List Ref) (xTrue : Option (List Arr)) (table : String) :
    ℕ → Db.Dict → PyM World Unit
  | 0, _ => pure ()
  | n + 1, data => do
    World.onHeap (epFwdBack env nodes)
    match xTrue with
    | none => epIterationsLoop env nodes xTrue table n data
    | some xs => do
      let data ← PyM.lift (Db.Dict.incr data "Iter")
      let w ← PyM.get
      let (r, l) ← PyM.lift (Metrics.nodeMetrics env w.heap nodes xs)
      let data := Db.Dict.set data "RMSE" (.num r)
      let data := Db.Dict.set data "NLL" (.num l)
      let data := Db.Dict.set data "Mean" (.pickle [])
      let data := Db.Dict.set data "Variance" (.pickle [])
      World.onConn (Db.insertExperimentData table data)
      World.onConn Db.commit
      epIterationsLoop env nodes xTrue table n data

/-- `ep_iterations` (`ExpectationPropagation/Iterations.py:45-67`): `expData` is the named tuple as a dict. -/
noncomputable def epIterations (env : Env) (nodes : List Ref) (maxIter : ℕ) (xTrue : Option (List Arr)) (expData : Db.Dict)
    (table : String) : PyM World Unit :=
  epIterationsLoop env nodes xTrue table maxIter (Db.Dict.del expData "Nodes")

/-! ## `Experiments/EP_FullSweep.py` -/

/-- A transform object. -/
inductive TransformObj
  | ut (u : UT)
  | taylor (dim : ℕ)
  | mc (dim samples : ℕ)

/-- Calling a transform object; `draw` are the numbers drawn by `np.random`. -/
noncomputable def TransformObj.call (env : Env) (jac : Jac) (draw : Draw) : TransformObj → Transform
  | .ut u => u.transform env
  | .taylor _ => taylorTransform env jac
  | .mc _ samples => mcTransform env draw samples

/-- The upper case form of an identifier (`id.upper()`); only ASCII letters matter for the comparisons below. -/
def upper (id : String) : String := String.ofList (id.toList.map Char.toUpper)

/-- `select_transform` (`Experiments/EP_FullSweep.py:33-51`) with the remaining parameters at their defaults. -/
noncomputable def selectTransform (id : String) (dim samples : ℕ) : Py (TransformObj × TransformObj) :=
  if upper id = "UT" then do
    return (.ut (← UT.init dim 1 2 3), .ut (← UT.init dim 1 2 2))
  else if upper id = "TT" then
    return (.taylor dim, .taylor dim)
  else if upper id = "MCT" then
    return (.mc dim samples, .mc dim samples)
  else do
    return (.ut (← UT.init dim 1 2 3), .ut (← UT.init dim 1 2 2))

/-- The fields of `Config` (`Experiments/EP_FullSweep.py:30`) other than the connection, and the external parts: `sim seed` is the
result of `np.random.seed(seed); system.simulate(timesteps)`. -/
structure Config where
  system : Sys
  timesteps : ℕ
  sysDim : ℕ
  numIter : ℕ
  dynTable : String
  expTable : String
  sim : ℤ → Py (List (Arr × Arr))

/-- One combination of a sweep. -/
structure Setting where
  transId : String
  power : ℝ
  damping : ℝ

/-- The named tuple `exp_data` (`Experiments/EP_FullSweep.py:58-67`, `Utils/Database.py:9-18`) as a dict. -/
def Setting.expData (s : Setting) (seed : ℤ) : Db.Dict :=
  [("Transform", .text s.transId), ("Seed", .num seed), ("Iter", .num 0), ("Power", .num s.power), ("Damping", .num s.damping),
    ("RMSE", .num 0), ("NLL", .num 0), ("Mean", .num 0), ("Variance", .num 0), ("Nodes", .pickle [])]

/-- The part of `power_sweep` before `ep_iterations` (`Experiments/EP_FullSweep.py:56`, `69-78`). -/
noncomputable def powerSweepNodes (env : Env) (jac : Jac) (draw : Draw) (cfg : Config) (yMeas : List Arr) (s : Setting) :
    PyM Heap (List Ref) := do
  let (transform, measTransform) ← PyM.lift (selectTransform s.transId cfg.sysDim 10000)
  let estim : Estimator :=
    { transMap := transform.call env jac draw
      measMap := measTransform.call env jac draw
      Q := some cfg.system.Q
      R := some cfg.system.R
      power := s.power
      damping := s.damping }
  let nodes ← buildNodes env cfg.timesteps cfg.sysDim none none
  let nodes ← nodeEstimator env nodes estim
  nodeSystem nodes cfg.system yMeas none

/-- `power_sweep` (`Experiments/EP_FullSweep.py:54-86`).  The nodes are only reachable from its local variables, so it is modelled on an
empty heap that is dropped at the end. -/
noncomputable def powerSweep (env : Env) (jac : Jac) (draw : Draw) (cfg : Config) (xTrue yMeas : List Arr) (seed : ℤ)
    (s : Setting) : PyM Conn Unit := fun conn =>
  let body : PyM World Unit := do
    let nodes ← World.onHeap (powerSweepNodes env jac draw cfg yMeas s)
    epIterations env nodes cfg.numIter (some xTrue) (s.expData seed) cfg.expTable
  let out := body ⟨⟨fun _ => Node.init 0 0, 0⟩, conn⟩
  (out.1, out.2.conn)

/-- The query of `full_sweep` (`Experiments/EP_FullSweep.py:89-91`, `106`). -/
noncomputable def storedQuery (table : String) (seed : ℤ) (s : Setting) : PyM Conn (List Row) :=
  Db.selectWhere table
    [("Transform", .text s.transId), ("Seed", .num seed), ("Power", .num s.power), ("Damping", .num s.damping), ("Iter", .num 50)]

/-- The body of the inner loop of `full_sweep` (`Experiments/EP_FullSweep.py:105-118`) without printing.  Returns whether
`power_sweep` was called. -/
noncomputable def sweepSetting (env : Env) (jac : Jac) (draw : Draw) (cfg : Config) (x y : List Arr) (seed : ℤ) (override : Bool)
    (s : Setting) : PyM Conn Bool := do
  let exits ← storedQuery cfg.expTable seed s
  PyM.tryExcept
    (if override then do powerSweep env jac draw cfg x y seed s; return true
      else if exits.length = 0 then do powerSweep env jac draw cfg x y seed s; return true
      else return false)
    .linAlg (return true)

/-- The numbers drawn by Monte Carlo transforms can depend on the seed and on the settings that were run since seeding. -/
abbrev Draws := ℤ → List Setting → Draw

/-- The inner loop of `full_sweep` (`Experiments/EP_FullSweep.py:104-119`): `ran` are the settings run since seeding. -/
noncomputable def sweepSettings (env : Env) (jac : Jac) (draws : Draws) (cfg : Config) (x y : List Arr) (seed : ℤ)
    (override : Bool) : List Setting → List Setting → PyM Conn Unit
  | _, [] => pure ()
  | ran, s :: ss => do
    let called ← sweepSetting env jac (draws seed ran) cfg x y seed override s
    sweepSettings env jac draws cfg x y seed override (if called then ran ++ [s] else ran) ss

/-- `itertools.product(trans_types, power_range, damp_range)`. -/
def settings (transTypes : List String) (powers dampings : List ℝ) : List Setting :=
  transTypes.flatMap fun t => powers.flatMap fun p => dampings.map fun d => ⟨t, p, d⟩

/-- The outer loop of `full_sweep` (`Experiments/EP_FullSweep.py:99-119`). -/
noncomputable def sweepSeeds (env : Env) (jac : Jac) (draws : Draws) (cfg : Config) (ss : List Setting) (override : Bool) :
    List ℤ → PyM Conn Unit
  | [] => pure ()
  | seed :: seeds => do
    let data ← PyM.lift (cfg.sim seed)
    Db.insertDynamicsData cfg.dynTable data seed
    -- `x, y = zip(*data)` fails when there is no data
    if data = [] then PyM.raise .value
    else do
      sweepSettings env jac draws cfg (data.map Prod.fst) (data.map Prod.snd) seed override [] ss
      sweepSeeds env jac draws cfg ss override seeds

/-- `full_sweep` (`Experiments/EP_FullSweep.py:94-119`). -/
noncomputable def fullSweep (env : Env) (jac : Jac) (draws : Draws) (cfg : Config) (seeds : List ℤ) (transTypes : List String)
    (powers dampings : List ℝ) (override : Bool) : PyM Conn Unit :=
  sweepSeeds env jac draws cfg (settings transTypes powers dampings) override seeds

/-- The database part of `main` (`Experiments/EP_FullSweep.py:157-158`, `175`): create the tables, then sweep. -/
noncomputable def sweepMain (env : Env) (jac : Jac) (draws : Draws) (cfg : Config) (seeds : List ℤ) (transTypes : List String)
    (powers dampings : List ℝ) (override : Bool) : PyM Conn Unit := do
  Db.createDynamicsTable cfg.dynTable
  Db.createExperimentTable cfg.expTable
  fullSweep env jac draws cfg seeds transTypes powers dampings override

end Verif
