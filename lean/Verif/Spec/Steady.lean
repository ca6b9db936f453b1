import Mathlib.LinearAlgebra.Matrix.PosDef

/-!
# Specification of the steady state of a filter (C87)

Nothing here refers to the model of the program.
-/

namespace Verif

open Matrix

variable {n k : ℕ}

/-- A covariance that prediction with `A`, `Q` and correction with `H`, `R` reproduce: a solution of the algebraic Riccati equation. -/
structure Steady (A Q : Matrix (Fin n) (Fin n) ℝ) (H : Matrix (Fin k) (Fin n) ℝ) (R : Matrix (Fin k) (Fin k) ℝ) (X : Matrix (Fin n) (Fin n) ℝ) :
    Prop where
  posDef : X.PosDef
  fixed : ∃ M, M = A * X * Aᵀ + Q ∧ X = M - M * Hᵀ * (H * M * Hᵀ + R)⁻¹ * H * M

end Verif
