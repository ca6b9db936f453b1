import Verif.Spec.Posterior
import Mathlib.Analysis.Calculus.FDeriv.Basic

/-!
# Trajectories of a nonlinear state space model

Nothing here refers to the model of the program.
-/

namespace Verif

open Matrix

/-- A state space model with Gaussian noise and `N` measurements: `x 0 ~ N(m0, P0)`, `x (j+1) ~ N(f j (x j), Q)`, and the
measurement `y j ~ N(h j (x (j+1)), R)`. -/
structure Markov (n k N : ℕ) where
  m0 : Fin n → ℝ
  P0 : Matrix (Fin n) (Fin n) ℝ
  f : Fin N → (Fin n → ℝ) → Fin n → ℝ
  Q : Matrix (Fin n) (Fin n) ℝ
  h : Fin N → (Fin n → ℝ) → Fin k → ℝ
  R : Matrix (Fin k) (Fin k) ℝ

namespace Markov

variable {n k N : ℕ}

/-- All covariances are positive definite. -/
structure Good (S : Markov n k N) : Prop where
  P0 : S.P0.PosDef
  Q : S.Q.PosDef
  R : S.R.PosDef

/-- The joint density of the trajectory `x 0, …, x N` and the measurements `y 0, …, y (N-1)`; as a function of the trajectory it is
proportional to the posterior density of the trajectory. -/
noncomputable def density (S : Markov n k N) (y : Fin N → Fin k → ℝ) (x : Fin (N + 1) → Fin n → ℝ) : ℝ :=
  normalPdf S.m0 S.P0 (x 0) * ∏ j : Fin N,
    (normalPdf (S.f j (x j.castSucc)) S.Q (x j.succ) * normalPdf (S.h j (x j.succ)) S.R (y j))

/-- The trajectory is a stationary point of the density. -/
def Stationary (S : Markov n k N) (y : Fin N → Fin k → ℝ) (x : Fin (N + 1) → Fin n → ℝ) : Prop :=
  HasFDerivAt (S.density y) (0 : (Fin (N + 1) → Fin n → ℝ) →L[ℝ] ℝ) x

/-- The model with each transition `f j` replaced by its tangent at `u j`. -/
noncomputable def tangent (S : Markov n k N) (u : Fin N → Fin n → ℝ) : Markov n k N :=
  { S with f := fun j x => S.f j (u j) + fderiv ℝ (S.f j) (u j) (x - u j) }

end Markov

end Verif
