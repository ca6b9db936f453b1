import Verif.Model.Sweep

/-!
# `Experiments/EP_Sweep_BearingsOnly.py`

Line 29 imports `Config` and `select_transform` from `Experiments.FullSweep`, a module that does not exist (the file is called
`EP_FullSweep.py`), so the script as it is ends with `ModuleNotFoundError` before anything is done.  The functions are modelled with
the two names taken from `EP_FullSweep.py`.  Printing is left out.
-/

namespace Verif

namespace EpTurn

/-- The columns of the table (`Experiments/EP_Sweep_BearingsOnly.py:41-48`, `55`). -/
def cols : List String := ["Transform", "Quantity", "Seed", "Iter", "Power", "Damping", "RMSE", "NLL"]

/-- `create_experiment_table` (`Experiments/EP_Sweep_BearingsOnly.py:32-51`). -/
def createExperimentTable (name : String) : PyM Conn Unit :=
  Db.createTable name cols ["Transform", "Quantity", "Seed", "Iter", "Power", "Damping"]

/-- `insert_experiment_data` (`Experiments/EP_Sweep_BearingsOnly.py:59-64`): the values in dict order are put into the columns. -/
noncomputable def insertExperimentData (name : String) (data : Db.Dict) : PyM Conn Unit :=
  Db.insert name cols (data.map Prod.snd)

/-- The dict `losses` (`Experiments/EP_Sweep_BearingsOnly.py:75`) in order of insertion. -/
def losses (c : Metrics.Components) : List (String × ℝ × ℝ) :=
  [("position", c.posRmse, c.posNll), ("velocity", c.velRmse, c.velNll), ("angle", c.angRmse, c.angNll)]

/-- The loop over `losses` (`Experiments/EP_Sweep_BearingsOnly.py:76-79`); returns `exp_data`. -/
noncomputable def storeLosses (table : String) : List (String × ℝ × ℝ) → Db.Dict → PyM Conn Db.Dict
  | [], data => pure data
  | (key, r, l) :: rest, data => do
    let data := Db.Dict.set data "RMSE" (.num r)
    let data := Db.Dict.set data "NLL" (.num l)
    let data := Db.Dict.set data "Quantity" (.text key)
    insertExperimentData table data
    storeLosses table rest data

/-- The loop of `ep_iterations` (`Experiments/EP_Sweep_BearingsOnly.py:70-82`) for the remaining number of passes. -/
noncomputable def loop (env : Env) (nodes : List Ref) (xTrue : Option (List Arr)) (table : String) : ℕ → Db.Dict → PyM World Unit
  | 0, _ => pure ()
  | n + 1, data => do
    World.onHeap (epFwdBack env nodes)
    match xTrue with
    | none => loop env nodes xTrue table n data
    | some xs => do
      let data ← PyM.lift (Db.Dict.incr data "Iter")
      let w ← PyM.get
      let c ← PyM.lift (Metrics.bearingMetrics env w.heap nodes xs)
      let data ← World.onConn (storeLosses table (losses c) data)
      World.onConn Db.commit
      loop env nodes xTrue table n data

/-- `ep_iterations` (`Experiments/EP_Sweep_BearingsOnly.py:67-82`): `expData` is the named tuple as a dict. -/
noncomputable def epIterations (env : Env) (nodes : List Ref) (maxIter : ℕ) (xTrue : Option (List Arr)) (expData : Db.Dict)
    (table : String) : PyM World Unit := loop env nodes xTrue table maxIter expData

/-- The named tuple `exp_data` (`Experiments/EP_Sweep_BearingsOnly.py:112-119`, `126-133`) as a dict. -/
def expData (s : Setting) (seed : ℤ) : Db.Dict :=
  [("Transform", .text s.transId), ("Quantity", .null), ("Seed", .num seed), ("Iter", .num 0), ("Power", .num s.power),
    ("Damping", .num s.damping), ("RMSE", .num 0), ("NLL", .num 0)]

/-- `power_sweep` (`Experiments/EP_Sweep_BearingsOnly.py:122-152`).  Its part before `ep_iterations` (`124`, `135-144`) is that of
`Experiments/EP_FullSweep.py:56`, `69-78`, word for word, also with `10⁴` samples. -/
noncomputable def powerSweep (env : Env) (jac : Jac) (draw : Draw) (cfg : Config) (xTrue yMeas : List Arr) (seed : ℤ)
    (s : Setting) : PyM Conn Unit := fun conn =>
  let body : PyM World Unit := do
    let nodes ← World.onHeap (powerSweepNodes env jac draw cfg yMeas s)
    epIterations env nodes cfg.numIter (some xTrue) (expData s seed) cfg.expTable
  let out := body ⟨⟨fun _ => Node.init 0 0, 0⟩, conn⟩
  (out.1, out.2.conn)

/-- The query of `full_sweep` (`Experiments/EP_Sweep_BearingsOnly.py:155-157`, `172-174`). -/
noncomputable def storedQuery (table : String) (seed : ℤ) (s : Setting) : PyM Conn (List Row) :=
  Db.selectWhere table
    [("Transform", .text s.transId), ("Seed", .num seed), ("Power", .num s.power), ("Damping", .num s.damping), ("Iter", .num 50)]

/-- The body of the inner loop of `full_sweep` (`Experiments/EP_Sweep_BearingsOnly.py:172-184`).  Returns whether `power_sweep` was
called. -/
noncomputable def sweepSetting (env : Env) (jac : Jac) (draw : Draw) (cfg : Config) (x y : List Arr) (seed : ℤ) (override : Bool)
    (s : Setting) : PyM Conn Bool := do
  let exits ← storedQuery cfg.expTable seed s
  PyM.tryExcept
    (if override then do powerSweep env jac draw cfg x y seed s; return true
      else if exits.length = 0 then do powerSweep env jac draw cfg x y seed s; return true
      else return false)
    .linAlg (return true)

/-- The inner loop of `full_sweep` (`Experiments/EP_Sweep_BearingsOnly.py:170-185`): `ran` are the settings run since seeding. -/
noncomputable def sweepSettings (env : Env) (jac : Jac) (draws : Draws) (cfg : Config) (x y : List Arr) (seed : ℤ)
    (override : Bool) : List Setting → List Setting → PyM Conn Unit
  | _, [] => pure ()
  | ran, s :: ss => do
    let called ← sweepSetting env jac (draws seed ran) cfg x y seed override s
    sweepSettings env jac draws cfg x y seed override (if called then ran ++ [s] else ran) ss

/-- The outer loop of `full_sweep` (`Experiments/EP_Sweep_BearingsOnly.py:165-185`). -/
noncomputable def sweepSeeds (env : Env) (jac : Jac) (draws : Draws) (cfg : Config) (ss : List Setting) (override : Bool) :
    List ℤ → PyM Conn Unit
  | [] => pure ()
  | seed :: seeds => do
    let data ← PyM.lift (cfg.sim seed)
    Db.insertDynamicsData cfg.dynTable data seed
    -- `X, y = zip(*data)` fails when there is no data
    if data = [] then PyM.raise .value
    else do
      sweepSettings env jac draws cfg (data.map Prod.fst) (data.map Prod.snd) seed override [] ss
      sweepSeeds env jac draws cfg ss override seeds

/-- The database part of `main` (`Experiments/EP_Sweep_BearingsOnly.py:203-204`, `217`): create the tables, then sweep. -/
noncomputable def main (env : Env) (jac : Jac) (draws : Draws) (cfg : Config) (seeds : List ℤ) (transTypes : List String)
    (powers dampings : List ℝ) (override : Bool) : PyM Conn Unit := do
  Db.createDynamicsTable cfg.dynTable
  createExperimentTable cfg.expTable
  sweepSeeds env jac draws cfg (settings transTypes powers dampings) override seeds

end EpTurn

end Verif
