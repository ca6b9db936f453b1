import Verif.Model.Estimator
import Verif.Model.Kalman

/-!
# `ExpectationPropagation/Nodes.py` and the update schedules of `ExpectationPropagation/Iterations.py`

Nodes are mutable objects on a heap.  Gaussians are immutable values (their caches can not be observed, property C04).
-/

namespace Verif

/-- A reference to a `Node` object. -/
abbrev Ref := ℕ

/-- `Estimator.proj_trans` bound to its object. -/
abbrev ProjTrans := Func → Gaussian → Py Gaussian
/-- `Estimator.proj_meas` bound to its object. -/
abbrev ProjMeas := Func → Gaussian → Arr → Py Gaussian
/-- `Estimator.proj_back` bound to its object. -/
abbrev ProjBack := Func → Gaussian → Gaussian → Option Gaussian → Py Gaussian

/-- The attributes of a `Node` (`ExpectationPropagation/Nodes.py:34-54`), including those added later with `setattr`
(lines 166-171, 205-207, 211), which are `none` while missing.  `trans_func` and `meas_func` default to methods without parameters
(lines 137-150); calling them with an argument is a `TypeError`.  The attributes `fwd_update`, `meas_update`, `back_update` hold
`functools.partial` objects: the node the underlying method is bound to and the projection.  The constant attributes `converged`
and `factors` are never read and left out. -/
structure Node where
  next : Option Ref := none
  prev : Option Ref := none
  index : ℕ
  dim : ℕ
  marginal : Gaussian
  measFactor : Gaussian
  backFactor : Gaussian
  fwdFactor : Gaussian
  power : Option ℝ := none
  damping : Option ℝ := none
  transFunc : Func := fun _ => .error .type
  measFunc : Func := fun _ => .error .type
  meas : Option Arr := none
  prior : Option Gaussian := none
  fwdUpdate : Option (Ref × ProjTrans) := none
  measUpdate : Option (Ref × ProjMeas) := none
  backUpdate : Option (Ref × ProjBack) := none

/-- The objects allocated so far: `size` of them, at references `0, …, size-1` (values elsewhere are irrelevant). -/
structure Heap where
  get : Ref → Node
  size : ℕ

namespace Heap

/-- Assigns to attributes of the node `r`. -/
def update (h : Heap) (r : Ref) (f : Node → Node) : Heap := { h with get := Function.update h.get r (f (h.get r)) }

/-- Allocates a new node. -/
def alloc (h : Heap) (n : Node) : Heap := { get := Function.update h.get h.size n, size := h.size + 1 }

end Heap

/-- A missing attribute: `AttributeError`. -/
def attr {α : Type} : Option α → Py α
  | some a => .ok a
  | none => .error .attribute

/-- `a / b` on Python numbers. -/
noncomputable def pyDiv (a b : ℝ) : Py ℝ := if b = 0 then .error .zeroDivision else .ok (a / b)

namespace Node

/-- `Node(dim, index=i)` (`ExpectationPropagation/Nodes.py:34-54`) with the defaults used by `build_nodes`. -/
noncomputable def init (dim index : ℕ) : Node where
  index := index
  dim := dim
  marginal := Gaussian.asMarginal dim
  measFactor := Gaussian.asFactor dim
  backFactor := Gaussian.asFactor dim
  fwdFactor := Gaussian.asFactor dim

/-- `copy` (`ExpectationPropagation/Nodes.py:56-60`): a new object with the same attributes. -/
def copy (self : Ref) : PyM Heap Ref := do
  let h ← PyM.get
  PyM.modify fun h => h.alloc (h.get self)
  return h.size

/-- `back_cavity` of `fwd_update` (`ExpectationPropagation/Nodes.py:65-67`).  The shallow copy of the previous node is only read,
so the node itself is read instead. -/
noncomputable def backCavityFromPrev (env : Env) (h : Heap) (nd : Node) : Py Gaussian := do
  let prev := h.get (← attr nd.prev)
  let ip ← pyDiv 1 (← attr nd.power)
  prev.marginal.truediv env (← prev.backFactor.pow env ip)

/-- The guarded computation of `fwd_update` (`ExpectationPropagation/Nodes.py:72-77`): new factor and new marginal. -/
noncomputable def fwdGuarded (env : Env) (nd : Node) (projTrans : ProjTrans) (backCavity : Gaussian) :
    Py (Gaussian × Gaussian) := do
  let old := nd.fwdFactor
  let state ← projTrans nd.transFunc backCavity
  validateCovariance env state
  let damping ← attr nd.damping
  let fwdFactor ← (← nd.fwdFactor.pow env (1 - damping)).mul env (← state.pow env damping)
  let ip ← pyDiv 1 (← attr nd.power)
  let marginal ← nd.marginal.mul env (← (← fwdFactor.truediv env old).pow env ip)
  validateCovariance env marginal
  return (fwdFactor, marginal)

/-- `fwd_update` (`ExpectationPropagation/Nodes.py:62-81`). -/
noncomputable def fwdUpdateBody (env : Env) (self : Ref) (projTrans : ProjTrans) : PyM Heap Unit := do
  let h ← PyM.get
  let nd := h.get self
  let backCavity ← PyM.tryExcept (PyM.lift (backCavityFromPrev env h nd)) .attribute (PyM.lift (attr nd.prior))
  let res ← PyM.tryExcept (do return some (← PyM.lift (fwdGuarded env nd projTrans backCavity))) .linAlg (return none)
  match res with
  | none => return ()
  | some (fwdFactor, marginal) =>
    PyM.modify fun h => h.update self fun n => { n with fwdFactor := fwdFactor }
    PyM.modify fun h => h.update self fun n => { n with marginal := marginal }

/-- `power_update` (`ExpectationPropagation/Nodes.py:124-135`); `cavity` is not used. -/
noncomputable def powerUpdate (env : Env) (nd : Node) (projected factor marginal : Gaussian) : Py (Gaussian × Gaussian) := do
  let damping ← attr nd.damping
  let power ← attr nd.power
  let ratio ← projected.truediv env marginal
  let newFactor ← factor.mul env (← ratio.pow env damping)
  let newMarginal ← marginal.mul env (← ratio.pow env (← pyDiv damping power))
  validateCovariance env newMarginal
  return (newFactor, newMarginal)

/-- `meas_update` (`ExpectationPropagation/Nodes.py:83-96`). -/
noncomputable def measUpdateBody (env : Env) (self : Ref) (projMeas : ProjMeas) : PyM Heap Unit := do
  let h ← PyM.get
  let nd := h.get self
  let cavity ← PyM.lift (nd.marginal.truediv env nd.measFactor)
  PyM.tryExcept (do
      let state ← PyM.lift (do projMeas nd.measFunc cavity (← attr nd.meas))
      PyM.lift (validateCovariance env state)
      let (newFactor, newMarginal) ← PyM.lift (nd.powerUpdate env state nd.measFactor nd.marginal)
      PyM.modify fun h => h.update self fun n => { n with measFactor := newFactor }
      PyM.modify fun h => h.update self fun n => { n with marginal := newMarginal })
    .linAlg (pure ())

/-- `next_node` and `next_fwd_cavity` of `back_update` (`ExpectationPropagation/Nodes.py:103-104`). -/
noncomputable def nextFwdCavity (env : Env) (h : Heap) (nd : Node) : Py (Node × Gaussian) := do
  let next := h.get (← attr nd.next)
  let ip ← pyDiv 1 (← attr nd.power)
  return (next, ← next.marginal.truediv env (← next.fwdFactor.pow env ip))

/-- `back_update` (`ExpectationPropagation/Nodes.py:98-122`). -/
noncomputable def backUpdateBody (env : Env) (self : Ref) (projBack : ProjBack) : PyM Heap Unit := do
  let h ← PyM.get
  let nd := h.get self
  let backCavity ← PyM.lift (nd.marginal.truediv env nd.backFactor)
  let res ← PyM.tryExcept (do return some (← PyM.lift (nextFwdCavity env h nd))) .attribute (return none)
  match res with
  | none => return ()
  | some (next, nextCavity) =>
    PyM.tryExcept (do
        let state ← PyM.lift (projBack next.transFunc backCavity nextCavity (some next.marginal))
        PyM.lift (validateCovariance env state)
        let (newFactor, newMarginal) ← PyM.lift (nd.powerUpdate env state nd.backFactor nd.marginal)
        PyM.modify fun h => h.update self fun n => { n with backFactor := newFactor }
        PyM.modify fun h => h.update self fun n => { n with marginal := newMarginal })
      .linAlg (pure ())

/-! The calls `node.fwd_update()` etc.  After `node_estimator` the attribute is a `partial`, which calls the method of the node it is
bound to; without it the projection argument is missing: `TypeError`. -/

/-- `node.fwd_update()`. -/
noncomputable def fwdCall (env : Env) (self : Ref) : PyM Heap Unit := do
  match ((← PyM.get).get self).fwdUpdate with
  | some (target, proj) => fwdUpdateBody env target proj
  | none => PyM.raise .type

/-- `node.meas_update()`. -/
noncomputable def measCall (env : Env) (self : Ref) : PyM Heap Unit := do
  match ((← PyM.get).get self).measUpdate with
  | some (target, proj) => measUpdateBody env target proj
  | none => PyM.raise .type

/-- `node.back_update()`. -/
noncomputable def backCall (env : Env) (self : Ref) : PyM Heap Unit := do
  match ((← PyM.get).get self).backUpdate with
  | some (target, proj) => backUpdateBody env target proj
  | none => PyM.raise .type

/-- `partial(node.update, proj=…)` (`ExpectationPropagation/Nodes.py:166-168`): the first time the class method bound to the node is
wrapped; if the attribute already is a `partial` its target is kept and the new keyword replaces the old one. -/
def rebind {α : Type} (self : Ref) (old : Option (Ref × α)) (proj : α) : Option (Ref × α) :=
  match old with
  | some (target, _) => some (target, proj)
  | none => some (self, proj)

end Node

/-- `node_estimator` (`ExpectationPropagation/Nodes.py:153-175`).  `power` and `damping` always exist on an `Estimator`. -/
noncomputable def nodeEstimator (env : Env) (nodes : List Ref) (e : Estimator) : PyM Heap (List Ref) := do
  PyM.forEach nodes fun r => do
    PyM.modify fun h => h.update r fun n => { n with fwdUpdate := Node.rebind r n.fwdUpdate e.projTrans }
    PyM.modify fun h => h.update r fun n => { n with measUpdate := Node.rebind r n.measUpdate (e.projMeas env) }
    PyM.modify fun h => h.update r fun n => { n with backUpdate := Node.rebind r n.backUpdate (e.projBack env) }
    PyM.modify fun h => h.update r fun n => { n with power := some e.power }
    PyM.modify fun h => h.update r fun n => { n with damping := some e.damping }
  return nodes

/-- The default `farg_list` (`ExpectationPropagation/Nodes.py:196-202`): `t` accumulates `dt`, `u` is `0.0`. -/
def defaultFargs (dt : ℝ) : ℕ → ℝ → List (Option ℝ × Option ℝ)
  | 0, _ => []
  | n + 1, t => (some t, some 0) :: defaultFargs dt n (t + dt)

/-- The loop of `node_system` (`ExpectationPropagation/Nodes.py:204-209`): `zip` stops at the shortest list. -/
def nodeSystemLoop (sys : Sys) : List Ref → List Arr → List (Option ℝ × Option ℝ) → PyM Heap (List Ref)
  | r :: rs, y :: ys, (t, u) :: fs => do
    PyM.modify fun h => h.update r fun n => { n with transFunc := fun x => sys.transition x t u }
    PyM.modify fun h => h.update r fun n => { n with measFunc := fun x => sys.measurement x none none }
    PyM.modify fun h => h.update r fun n => { n with meas := some y.squeeze }
    return r :: (← nodeSystemLoop sys rs ys fs)
  | _, _, _ => return []

/-- `node_system` (`ExpectationPropagation/Nodes.py:178-212`); `farg_list` entries are the keyword arguments `t` and `u`. -/
def nodeSystem (nodes : List Ref) (sys : Sys) (measurements : List Arr) (fargs : Option (List (Option ℝ × Option ℝ))) :
    PyM Heap (List Ref) := do
  let out ← nodeSystemLoop sys nodes measurements (fargs.getD (defaultFargs sys.dt measurements.length 0))
  match out with
  | [] => PyM.raise .index
  | r :: _ =>
    PyM.modify fun h => h.update r fun n => { n with prior := some sys.initState }
    return out

/-- `[Node(dim, index=i) for i in range(N)]` (`ExpectationPropagation/Nodes.py:229`) for the remaining indices. -/
noncomputable def allocNodes (dim : ℕ) : ℕ → ℕ → PyM Heap (List Ref)
  | 0, _ => return []
  | n + 1, i => do
    let h ← PyM.get
    PyM.modify fun h => h.alloc (Node.init dim i)
    return h.size :: (← allocNodes dim n (i + 1))

/-- The body of the linking loop (`ExpectationPropagation/Nodes.py:231-242`) for index `i`. -/
def linkNode (N : ℕ) (nodes : List Ref) (i : ℕ) (r : Ref) : PyM Heap Unit :=
  if i = 0 then do
    PyM.modify fun h => h.update r fun n => { n with prev := none }
    let x ← PyM.lift (IEKS.getItem nodes (i + 1))
    PyM.modify fun h => h.update r fun n => { n with next := some x }
  else if i = N - 1 then do
    let p ← PyM.lift (IEKS.getItem nodes (i - 1))
    PyM.modify fun h => h.update r fun n => { n with prev := some p }
    PyM.modify fun h => h.update r fun n => { n with next := none }
  else do
    let x ← PyM.lift (IEKS.getItem nodes (i + 1))
    PyM.modify fun h => h.update r fun n => { n with next := some x }
    let p ← PyM.lift (IEKS.getItem nodes (i - 1))
    PyM.modify fun h => h.update r fun n => { n with prev := some p }

/-- `build_nodes` (`ExpectationPropagation/Nodes.py:215-250`).  Passing a system calls `node_system` without its required argument
`measurements` (line 248): `TypeError`. -/
noncomputable def buildNodes (env : Env) (N dim : ℕ) (estimator : Option Estimator) (system : Option Sys) :
    PyM Heap (List Ref) := do
  let nodes ← allocNodes dim N 0
  PyM.forEach nodes.zipIdx fun (r, i) => linkNode N nodes i r
  let nodes ← match estimator with
    | some e => nodeEstimator env nodes e
    | none => pure nodes
  match system with
  | some _ => PyM.raise .type
  | none => return nodes

/-! ## Schedules (`ExpectationPropagation/Iterations.py`) -/

/-- `kalman_filter` (`ExpectationPropagation/Iterations.py:19-22`). -/
noncomputable def epFilter (env : Env) (nodes : List Ref) : PyM Heap Unit :=
  PyM.forEach nodes fun r => do Node.fwdCall env r; Node.measCall env r

/-- `kalman_smoother` (`ExpectationPropagation/Iterations.py:25-27`). -/
noncomputable def epSmoother (env : Env) (nodes : List Ref) : PyM Heap Unit :=
  PyM.forEach nodes.reverse fun r => Node.backCall env r

/-- `ep_fwd_back_updates` (`ExpectationPropagation/Iterations.py:30-35`). -/
noncomputable def epFwdBack (env : Env) (nodes : List Ref) : PyM Heap Unit := do
  PyM.forEach nodes fun r => do Node.fwdCall env r; Node.measCall env r
  PyM.forEach nodes.reverse fun r => Node.backCall env r

/-- `ep_update` (`ExpectationPropagation/Iterations.py:38-42`). -/
noncomputable def epUpdate (env : Env) (nodes : List Ref) : PyM Heap Unit :=
  PyM.forEach nodes fun r => do Node.fwdCall env r; Node.measCall env r; Node.backCall env r

end Verif
