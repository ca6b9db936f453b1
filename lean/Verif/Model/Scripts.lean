import Verif.Model.Sweep
import Verif.Model.Systems

/-!
# The scripts `Experiments/IEKS_Sweep_*.py`

The parts that only print are left out.
-/

namespace Verif

/-- A system as `simulate` sees it (`Systems/DynamicSystem.py:71-90`): `f` and `h` of the systems in `Systems/` return results of
arithmetic, which are new arrays; the noises were created by `GaussianNoise(dimension, cov)`. -/
def Sys.dyn (dx dy : ℕ) (sys : Sys) : DynSys where
  transition a t := (sys.transition a (some t) none).map .fresh
  measurement a := (sys.measurement a none none).map .fresh
  systemNoise := .init dx (some sys.Q) none
  measurementNoise := .init dy (some sys.R) none
  initState := sys.initState
  dt := sys.dt

/-- `np.random.seed(seed); data = system.simulate(N)` (e.g. `Experiments/IEKS_Sweep_UNGM.py:68-69`): the values of the returned
arrays; `rng` are the numbers drawn after seeding. -/
noncomputable def simData (env : Env) (rng : Rng) (dx dy : ℕ) (sys : Sys) (N : ℕ) : Py (List (Arr × Arr)) :=
  let out := (sys.dyn dx dy).simulate env rng N none 0 ⟨fun _ => .s 0, 0, 0⟩
  out.1.map fun l => l.map fun p => (out.2.get p.1, out.2.get p.2)

/-- The items of `np.array(x).squeeze()` (`Experiments/IEKS_Sweep_UNGM.py:71`) in the order of iteration, for a nonempty tuple `x`.
A single array loses its first axis too; iterating over a 0-d array is a `TypeError`.  Arrays of different shapes are outside the
model. -/
def stackItems : List Arr → Py (List Arr)
  | [] => .error .outOfModel  -- not reached
  | [a] => match a.squeeze with
    | .s _ => .error .type
    | .v f => .ok (List.ofFn fun i => .s (f i))
    | .m M => .ok (List.ofFn fun i => .v (M i))
  | a :: b :: l => if (b :: l).all fun c => c.shape == a.shape then .ok ((a :: b :: l).map Arr.squeeze) else .error .outOfModel

/-- Simulation, iterated smoother and scores (`Experiments/IEKS_Sweep_UNGM.py:68-77`, `Experiments/IEKS_Sweep_L96.py:77-86`,
`Experiments/IEKS_Sweep_BearingsOnly.py:96-105`).  `x, y = zip(*data)` of an empty list is a `ValueError`. -/
noncomputable def ieksScores {α : Type} (env : Env) (jac : Jac) (rng : Rng) (dx dy : ℕ) (sys : Sys) (N numIter : ℕ)
    (score : List Gaussian → List Arr → Py α) : Py α := do
  let data ← simData env rng dx dy sys N
  if data.isEmpty then .error .value
  let results ← (IEKS.call env jac (IEKS.init env jac sys).1 (data.map Prod.snd) numIter (IEKS.init env jac sys).2).1
  let xs ← stackItems (data.map Prod.fst)
  score results xs

/-- `for …: db.execute(query_str, …)` and `con.commit()` for the rows of one job. -/
noncomputable def recordRows (table : String) (cols : List String) (rows : List Row) : PyM Conn Unit := do
  PyM.forEach rows fun r => Db.insert table cols r
  Db.commit

/-- The common frame of the three scripts: create the table; for every job compute its rows, insert them and commit.  The columns of
the `UNIQUE` constraint are the first `k`. -/
noncomputable def ieksMain {J : Type} (table : String) (cols : List String) (k : ℕ) (jobs : List J) (rows : J → Py (List Row)) :
    PyM Conn Unit := do
  Db.createTable table cols (cols.take k)
  PyM.forEach jobs fun j => do
    let rs ← PyM.lift (rows j)
    recordRows table cols rs

namespace IeksSweep

/-- The rows of one job of `Experiments/IEKS_Sweep_UNGM.py:63-80`. -/
noncomputable def ungmRows (env : Env) (jac : Jac) (rng : ℤ → Rng) (N numIter : ℕ) (seed : ℤ) : Py (List Row) := do
  let sys ← UNGM.init
  let (r, l) ← ieksScores env jac (rng seed) 1 1 sys N numIter fun res xs => do
    return (← Metrics.rmse env res xs, ← Metrics.nll env res xs)
  return [[.num seed, .num numIter, .num r, .num l]]

/-- `Experiments/IEKS_Sweep_UNGM.py:24-81`. -/
noncomputable def ungm (env : Env) (jac : Jac) (rng : ℤ → Rng) (N numIter : ℕ) (seeds : List ℤ) : PyM Conn Unit :=
  ieksMain "UNGM_EXP" ["Seed", "Iter", "RMSE", "NLL"] 2 seeds (ungmRows env jac rng N numIter)

/-- The rows of one job of `Experiments/IEKS_Sweep_L96.py:71-89`; `stored dim` is the content of the file with the initial
condition. -/
noncomputable def l96Rows (env : Env) (jac : Jac) (rng : ℤ → Rng) (stored : ℕ → Option Arr) (N numIter : ℕ) (job : ℕ × ℤ) :
    Py (List Row) := do
  let sys ← L96.init 0.1 1 0.05 job.1 8 (stored job.1)
  let (r, l) ← ieksScores env jac (rng job.2) job.1 job.1 sys N numIter fun res xs => do
    return (← Metrics.rmse env res xs, ← Metrics.nll env res xs)
  return [[.num job.1, .num job.2, .num numIter, .num r, .num l]]

/-- `Experiments/IEKS_Sweep_L96.py:25-93`: the jobs are `itertools.product(dims, SEEDS)`. -/
noncomputable def l96 (env : Env) (jac : Jac) (rng : ℤ → Rng) (stored : ℕ → Option Arr) (N numIter : ℕ) (dims : List ℕ)
    (seeds : List ℤ) : PyM Conn Unit :=
  ieksMain "L96_EXP" ["dim", "Seed", "Iter", "RMSE", "NLL"] 3 (dims ×ˢ seeds) (l96Rows env jac rng stored N numIter)

/-- The rows of one job of `Experiments/IEKS_Sweep_BearingsOnly.py:91-111`: one for each of three quantities. -/
noncomputable def bottRows (env : Env) (jac : Jac) (rng : ℤ → Rng) (N numIter : ℕ) (seed : ℤ) : Py (List Row) := do
  let sys ← BOTT.init 0.1 0.000175 (Real.sqrt 10 * 0.001) (some BOTT.defaultSensors) 1
  let c ← ieksScores env jac (rng seed) 5 BOTT.defaultSensors.length sys N numIter (Metrics.componentwiseMetrics env)
  return [[.text "position", .num seed, .num numIter, .num c.posRmse, .num c.posNll],
    [.text "velocity", .num seed, .num numIter, .num c.velRmse, .num c.velNll],
    [.text "angle", .num seed, .num numIter, .num c.angRmse, .num c.angNll]]

/-- `Experiments/IEKS_Sweep_BearingsOnly.py:24-112`. -/
noncomputable def bott (env : Env) (jac : Jac) (rng : ℤ → Rng) (N numIter : ℕ) (seeds : List ℤ) : PyM Conn Unit :=
  ieksMain "BOTT_EXP" ["Quantity", "Seed", "Iter", "RMSE", "NLL"] 3 seeds (bottRows env jac rng N numIter)

end IeksSweep

end Verif
