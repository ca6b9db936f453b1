import Verif.Model.Gaussian
import Mathlib.LinearAlgebra.Matrix.PosDef

/-!
# States that can be reported
-/

namespace Verif

/-- The mean of `g` can be read, and its covariance reads as a positive definite (hence symmetric) matrix of `n` rows. -/
def Gaussian.Reportable (env : Env) (n : ℕ) (g : Gaussian) : Prop :=
  (∃ m, g.meanA env = .ok m) ∧ ∃ C : Matrix (Fin n) (Fin n) ℝ, C.PosDef ∧ g.covA env = .ok (.m C)

end Verif
