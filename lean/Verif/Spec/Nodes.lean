import Verif.Model.Nodes
import Verif.Spec.Gaussian

/-!
# Vocabulary for stating properties of the factor graph
-/

namespace Verif

/-- The three kinds of updates a user can call on a node. -/
inductive Upd
  | fwd | meas | back
  deriving DecidableEq

/-- `node.fwd_update()`, `node.meas_update()` or `node.back_update()`. -/
noncomputable def Upd.call (env : Env) : Upd × Ref → PyM Heap Unit
  | (.fwd, r) => Node.fwdCall env r
  | (.meas, r) => Node.measCall env r
  | (.back, r) => Node.backCall env r

/-- The node whose method a call really runs: the node the `partial` is bound to. -/
def Upd.target (h : Heap) : Upd × Ref → Option Ref
  | (.fwd, r) => (h.get r).fwdUpdate.map Prod.fst
  | (.meas, r) => (h.get r).measUpdate.map Prod.fst
  | (.back, r) => (h.get r).backUpdate.map Prod.fst

/-- The heap after a schedule of calls; the caller swallows every exception and goes on. -/
noncomputable def afterCalls (env : Env) (calls : List (Upd × Ref)) (h : Heap) : Heap :=
  calls.foldl (fun h c => (Upd.call env c h).2) h

/-- Executing calls one after the other until one raises: how far one gets, with which result and heap. -/
inductive Executes (env : Env) : List (Upd × Ref) → Heap → Py Unit → Heap → Prop
  | done (h) : Executes env [] h (.ok ()) h
  | step {c cs h h1 r h2} : Upd.call env c h = (.ok (), h1) → Executes env cs h1 r h2 → Executes env (c :: cs) h r h2
  | stop {c cs h e h1} : Upd.call env c h = (.error e, h1) → Executes env (c :: cs) h (.error e) h1

/-- The natural parameters of `g` can be read. -/
def NatReadable (env : Env) (g : Gaussian) : Prop := ∃ P h, g.precisionA env = .ok P ∧ g.shiftA env = .ok h

/-- A projection attempt that fails numerically: it raises `LinAlgError`, or its result is rejected by `validate_covariance` with
`LinAlgError`. -/
def FailsNumerically (env : Env) (x : Py Gaussian) : Prop :=
  x = .error .linAlg ∨ ∃ s, x = .ok s ∧ validateCovariance env s = .error .linAlg

/-! Arrays of any shape, entry by entry: `Arr.bget a i j` is entry `[i, j]` of `a` stretched along axes of length one. -/

namespace Arr

/-- No axis of length zero. -/
def Full (a : Arr) : Prop := 0 < a.rows ∧ 0 < a.cols

/-- Symmetric in the broadcasting view. -/
def Symm (a : Arr) : Prop := ∀ i j, a.bget i j = a.bget j i

end Arr

open Arr

/-- A precision matrix as the updates leave it: rank two and symmetric, if it has entries at all. -/
def SymMat (a : Arr) : Prop := a.ndim = 2 ∧ (a.Full → a.Symm)

/-- The natural parameters read from `g`. -/
def Gaussian.Nats (env : Env) (g : Gaussian) (P h : Arr) : Prop := g.precisionA env = .ok P ∧ g.shiftA env = .ok h

open Gaussian

/-- The marginal of the node reads `base` times the product of its three factors to the power `1/α`: precisions and shifts add up,
entry by entry.  (`pb` and `sb` are the natural parameters of `base`.)  All precisions are symmetric matrices. -/
def Balanced (env : Env) (α : ℝ) (pb sb : ℕ → ℕ → ℝ) (nd : Node) : Prop :=
  ∃ PM hM PF hF PG hG PB hB : Arr, Nats env nd.marginal PM hM ∧ Nats env nd.fwdFactor PF hF ∧ Nats env nd.measFactor PG hG ∧
    Nats env nd.backFactor PB hB ∧ SymMat PM ∧ SymMat PF ∧ SymMat PG ∧ SymMat PB ∧
    (PM.Full → (PF.Full ∧ PG.Full ∧ PB.Full) ∧
      ∀ i j, PM.bget i j = pb i j + (PF.bget i j + PG.bget i j + PB.bget i j) / α) ∧
    (hM.Full → (hF.Full ∧ hG.Full ∧ hB.Full) ∧
      ∀ i j, hM.bget i j = sb i j + (hF.bget i j + hG.bget i j + hB.bget i j) / α)

end Verif
