import Verif.Model.Scripts

/-!
# The script `Experiments/EP_Sweep_L96.py`

The parts that only print are left out, and so are the values kept in `means`, `stds`, `rmse_list` and `nll_list`, which nothing reads;
the assignments to `means` and `stds` can fail and are modelled as far as that goes.
-/

namespace Verif

/-- `INSERT INTO t (cols) VALUES (vals)`: as `insertOrIgnore`, but a row violating the constraint is an `IntegrityError`. -/
noncomputable def Table.insertStrict (t : Table) (cols : List String) (vals : List Cell) : Py Table :=
  if cols.length = vals.length ∧ ∀ c ∈ cols, c ∈ t.cols then
    let row := t.cols.map (cell cols vals)
    if t.conflicts row then .error .sql else .ok { t with rows := t.rows ++ [row] }
  else .error .sql

/-- `db.execute("INSERT INTO …", vals)`: the module `sqlite3` opens a transaction, if none is open, before executing the statement, and
leaves it open when that fails. -/
noncomputable def Db.insertStrict (name : String) (cols : List String) (vals : List Cell) : PyM Conn Unit := do
  let c ← PyM.get
  match c.work name with
  | none => PyM.raise .sql
  | some t =>
    match t.insertStrict cols vals with
    | .error e => do
      PyM.modify fun c => ({ c with inTx := true }).record
      PyM.raise e
    | .ok t' => PyM.modify fun c => ({ c with work := Function.update c.work name (some t'), inTx := true }).record

/-- `a[i, j] = value` for an array `a` of shape `(_, _, dim)`: the value must broadcast to shape `(dim,)`; leading axes of length one are
dropped. -/
def assignSlot (dim : ℕ) : Arr → Py Unit
  | .s _ => .ok ()
  | @Arr.v k _ => if k = dim ∨ k = 1 then .ok () else .error .value
  | @Arr.m r c _ => if r = 1 ∧ (c = dim ∨ c = 1) then .ok () else .error .value

/-- `np.diag`. -/
def npDiag : Arr → Py Arr
  | .s _ => .error .value
  | @Arr.v _ f => .ok (.m (Matrix.diagonal f))
  | @Arr.m r c M => .ok (.v fun i : Fin (min r c) => M (i.castLE (min_le_left r c)) (i.castLE (min_le_right r c)))

namespace EpL96

/-- `Experiments/EP_Sweep_L96.py:101-103`: the means and standard deviations of all nodes are stored.  `np.sqrt` keeps the shape and raises
no exception. -/
noncomputable def recordMoments (env : Env) (dim : ℕ) (h : Heap) (nodes : List Ref) : Py Unit :=
  nodes.forM fun r => do
    assignSlot dim (← (h.get r).marginal.meanA env)
    assignSlot dim (← npDiag (← (h.get r).marginal.covA env))

/-- The columns of the table (`Experiments/EP_Sweep_L96.py:49-60`, `63-65`). -/
def cols : List String := ["Transform", "Seed", "dim", "Iter", "Power", "Damping", "RMSE", "NLL"]

/-- The iterations (`Experiments/EP_Sweep_L96.py:95-108`) from number `iter` on, with the number of those remaining. -/
noncomputable def passLoop (env : Env) (dim : ℕ) (seed : ℤ) (power damping : ℝ) (nodes : List Ref) (xs : List Arr) :
    ℕ → ℕ → PyM World Unit
  | 0, _ => pure ()
  | n + 1, iter => do
    World.onHeap (epFwdBack env nodes)
    let w ← PyM.get
    PyM.lift (recordMoments env dim w.heap nodes)
    let (r, l) ← PyM.lift (Metrics.nodeMetrics env w.heap nodes xs)
    World.onConn (Db.insertStrict "L96_EXP" cols
      [.text "MCT", .num seed, .num dim, .num iter, .num power, .num damping, .num r, .num l])
    World.onConn Db.commit
    passLoop env dim seed power damping nodes xs n (iter + 1)

/-- The body of the inner loop (`Experiments/EP_Sweep_L96.py:75-110`).  Its `select_transform` (lines 10-29) is that of
`EP_FullSweep.py` with one dimension for each of the two transforms, here the same; system and measurement noise are `Q` and `R`.  The
nodes are only reachable from local variables, so it is modelled on an empty heap that is dropped at the end. -/
noncomputable def setting (env : Env) (jac : Jac) (draw : Draw) (sys : Sys) (N dim : ℕ) (seed : ℤ) (xs ys : List Arr)
    (power damping : ℝ) (maxIter : ℕ) : PyM Conn Unit := fun conn =>
  let body : PyM World Unit := do
    let nodes ← World.onHeap (do
      let (transform, measTransform) ← PyM.lift (selectTransform "MCT" dim 10000)
      let estim : Estimator :=
        { transMap := transform.call env jac draw
          measMap := measTransform.call env jac draw
          Q := some sys.Q
          R := some sys.R
          power := power
          damping := damping }
      let nodes ← buildNodes env N dim none none
      let nodes ← nodeEstimator env nodes estim
      nodeSystem nodes sys ys none)
    passLoop env dim seed power damping nodes xs maxIter 0
  let out := body ⟨⟨fun _ => Node.init 0 0, 0⟩, conn⟩
  (out.1, out.2.conn)

/-- What the script depends on besides its lists: `stored dim` is the content of the file with the initial condition, `rng seed` the
numbers drawn by the simulation, and `draws dim seed power damping` those drawn by the transforms. -/
structure Setup where
  env : Env
  jac : Jac
  draws : ℕ → ℤ → ℝ → ℝ → Draw
  rng : ℤ → Rng
  stored : ℕ → Option Arr
  N : ℕ

/-- The body of the outer loop (`Experiments/EP_Sweep_L96.py:68-112`); `settings` is `zip(power_list, damping_list, iter_list)`.
`x, y = zip(*data)` of an empty list is a `ValueError`. -/
noncomputable def job (u : Setup) (settings : List (ℝ × ℝ × ℕ)) (j : ℕ × ℤ) : PyM Conn Unit := do
  let sys ← PyM.lift (L96.init 0.1 1 0.05 j.1 8 (u.stored j.1))
  let data ← PyM.lift (simData u.env (u.rng j.2) j.1 j.1 sys u.N)
  if data.isEmpty then PyM.raise .value
  else PyM.forEach settings fun s =>
    setting u.env u.jac (u.draws j.1 j.2 s.1 s.2.1) sys u.N j.1 j.2 (data.map Prod.fst) (data.map Prod.snd) s.1 s.2.1 s.2.2

/-- `Experiments/EP_Sweep_L96.py:46-112`: create the table, commit, and run the jobs `itertools.product(dims, seeds)`. -/
noncomputable def main (u : Setup) (dims : List ℕ) (seeds : List ℤ) (settings : List (ℝ × ℝ × ℕ)) : PyM Conn Unit := do
  Db.createTable "L96_EXP" cols (cols.take 6)
  Db.commit
  PyM.forEach (dims ×ˢ seeds) (job u settings)

end EpL96

end Verif
