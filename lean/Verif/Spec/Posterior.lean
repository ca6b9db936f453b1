import Mathlib.MeasureTheory.Integral.Marginal
import Mathlib.MeasureTheory.Measure.Haar.OfBasis
import Mathlib.LinearAlgebra.Matrix.PosDef
import Mathlib.Analysis.SpecialFunctions.Exp
import Mathlib.Analysis.SpecialFunctions.Trigonometric.Basic

/-!
# Posterior marginals of a linear Gaussian state space model

Nothing here refers to the model of the program.
-/

namespace Verif

open Matrix MeasureTheory

/-- The density of the normal distribution with mean `μ` and covariance `C`. -/
noncomputable def normalPdf {n : ℕ} (μ : Fin n → ℝ) (C : Matrix (Fin n) (Fin n) ℝ) (x : Fin n → ℝ) : ℝ :=
  (Real.sqrt C.det * Real.sqrt (2 * Real.pi) ^ n)⁻¹ * Real.exp (-((x - μ) ⬝ᵥ C⁻¹ *ᵥ (x - μ)) / 2)

/-- A linear Gaussian state space model with time dependent maps: `x₀ ~ N(m0, P0)`, `x (j+1) ~ N(A j x j + b j, Q)`, and the
measurement `y j ~ N(H j x (j+1) + c j, R)`. -/
structure StateSpace (n k : ℕ) where
  m0 : Fin n → ℝ
  P0 : Matrix (Fin n) (Fin n) ℝ
  A : ℕ → Matrix (Fin n) (Fin n) ℝ
  b : ℕ → Fin n → ℝ
  Q : Matrix (Fin n) (Fin n) ℝ
  H : ℕ → Matrix (Fin k) (Fin n) ℝ
  c : ℕ → Fin k → ℝ
  R : Matrix (Fin k) (Fin k) ℝ

namespace StateSpace

variable {n k : ℕ}

/-- All covariances are positive definite. -/
structure Good (L : StateSpace n k) : Prop where
  P0 : L.P0.PosDef
  Q : L.Q.PosDef
  R : L.R.PosDef

/-- The joint density of the trajectory `x 0, …, x N` and the measurements `y 0, …, y (N-1)`. -/
noncomputable def joint (L : StateSpace n k) (y : ℕ → Fin k → ℝ) (N : ℕ) (x : ℕ → Fin n → ℝ) : ℝ :=
  normalPdf L.m0 L.P0 (x 0) * ∏ j ∈ Finset.range N,
    (normalPdf (L.A j *ᵥ x j + L.b j) L.Q (x (j + 1)) * normalPdf (L.H j *ᵥ x (j + 1) + L.c j) L.R (y j))

/-- The density of the measurements `y 0, …, y (N-1)`: the joint density integrated over the whole trajectory. -/
noncomputable def evidence (L : StateSpace n k) (y : ℕ → Fin k → ℝ) (N : ℕ) : ENNReal :=
  (∫⋯∫⁻_(Finset.range (N + 1)), fun x : ℕ → Fin n → ℝ => ENNReal.ofReal (L.joint y N x)) fun _ => 0

/-- The posterior density at `z` of the state `x i` given the measurements `y 0, …, y (N-1)`: the joint density integrated over
all other states, divided by the density of the measurements. -/
noncomputable def posterior (L : StateSpace n k) (y : ℕ → Fin k → ℝ) (N i : ℕ) (z : Fin n → ℝ) : ENNReal :=
  (∫⋯∫⁻_((Finset.range (N + 1)).erase i), fun x : ℕ → Fin n → ℝ => ENNReal.ofReal (L.joint y N x)) (fun _ => z) /
    L.evidence y N

/-- The same model with another prior. -/
def withPrior (L : StateSpace n k) (m : Fin n → ℝ) (P : Matrix (Fin n) (Fin n) ℝ) : StateSpace n k := { L with m0 := m, P0 := P }

/-- The weighted mean of two vectors; any weight is allowed. -/
def mix {p : ℕ} (θ : ℝ) (x x' : Fin p → ℝ) : Fin p → ℝ := (1 - θ) • x + θ • x'

/-- There is an observer with constant gain whose error covariance stays bounded: predicting with `A`, `Q` and correcting with the gain
`G` does not lead out of the matrices below `X`. -/
def Detectable (A Q : Matrix (Fin n) (Fin n) ℝ) (H : Matrix (Fin k) (Fin n) ℝ) (R : Matrix (Fin k) (Fin k) ℝ) : Prop :=
  ∃ (G : Matrix (Fin n) (Fin k) ℝ) (X : Matrix (Fin n) (Fin n) ℝ), X.PosDef ∧
    (X - ((1 - G * H) * (A * X * Aᵀ + Q) * (1 - G * H)ᵀ + G * R * Gᵀ)).PosSemidef

end StateSpace

end Verif
