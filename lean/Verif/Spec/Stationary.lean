import Verif.Spec.Nodes

/-!
# Vocabulary for fixed points of expectation propagation (C102)
-/

namespace Verif

/-- A value as the updates leave it: stored in natural parameters, with a square symmetric precision and at least one entry. -/
def Gaussian.Natural (g : Gaussian) : Prop :=
  ∃ P h, g = Gaussian.ofNatural P h ∧ h.atleast1d = h ∧ SymMat P ∧ P.rows = P.cols ∧ P.Full ∧ h.Full

/-- Marginal and factors of a node are such values. -/
def Node.Regular (nd : Node) : Prop :=
  nd.marginal.Natural ∧ nd.fwdFactor.Natural ∧ nd.measFactor.Natural ∧ nd.backFactor.Natural

/-- The same graph with another damping factor at every node. -/
def Heap.withDamping (γ : ℝ) (h : Heap) : Heap := { h with get := fun r => { h.get r with damping := some γ } }

end Verif
