import Verif.Spec.Kalman
import Mathlib.LinearAlgebra.Matrix.PosDef
import Mathlib.Logic.Equiv.Fin.Basic
import Mathlib.Data.Matrix.Block
import Mathlib.Data.Fin.Tuple.Basic

/-! What C106 says: correcting with several sensors one after the other, and with the stacked sensor. -/

namespace Verif

open Matrix

/-- Correct with one sensor after the other: each has its own filter object and its own measurement. -/
noncomputable def correctAll (env : Env) (t u : Option ℝ) (l : List (KFS × Arr)) (g : Gaussian) : Py Gaussian :=
  l.foldlM (fun g s => s.1.correct env g s.2 t u) g

/-- Predict with one filter object after the other. -/
noncomputable def predictAll (l : List (KFS × Option ℝ × Option ℝ)) (g : Gaussian) : Py Gaussian :=
  l.foldlM (fun g s => s.1.predict g s.2.1 s.2.2) g

/-- A sensor seeing `H x + c` with noise of covariance `R`, and the value `y` it gave. -/
structure Sees (env : Env) (t u : Option ℝ) (s : KFS × Arr) {n k : ℕ} (H : Matrix (Fin k) (Fin n) ℝ) (c : Fin k → ℝ)
    (R : Matrix (Fin k) (Fin k) ℝ) (y : Fin k → ℝ) : Prop where
  exact' : ExactOn env s.1.measTransform (fun x => s.1.measurement x t u) H c
  noise : s.1.R = .m R
  pos : R.PosDef
  value : IsVec s.2 y

/-- A prediction moving `x` to `A x + b` and adding noise of covariance `Q`. -/
structure Moves (env : Env) (s : KFS × Option ℝ × Option ℝ) {n : ℕ} (A : Matrix (Fin n) (Fin n) ℝ) (b : Fin n → ℝ)
    (Q : Matrix (Fin n) (Fin n) ℝ) : Prop where
  exact' : ExactOn env s.1.transform (fun x => s.1.transition x s.2.1 s.2.2) A b
  noise : s.1.Q = .m Q

/-- One matrix on top of the other. -/
def stackRows {k l n : ℕ} (A : Matrix (Fin k) (Fin n) ℝ) (B : Matrix (Fin l) (Fin n) ℝ) : Matrix (Fin (k + l)) (Fin n) ℝ :=
  of fun i => Fin.append A B i

/-- The block diagonal matrix. -/
def stackDiag {k l : ℕ} (A : Matrix (Fin k) (Fin k) ℝ) (B : Matrix (Fin l) (Fin l) ℝ) : Matrix (Fin (k + l)) (Fin (k + l)) ℝ :=
  (fromBlocks A 0 0 B).submatrix finSumFinEquiv.symm finSumFinEquiv.symm

/-- Both Gaussians exist and have the same mean and covariance, which is positive definite. -/
def SameResult (env : Env) (n : ℕ) (a b : Py Gaussian) : Prop :=
  ∃ (g h : Gaussian) (m : Fin n → ℝ) (C : Matrix (Fin n) (Fin n) ℝ), a = .ok g ∧ b = .ok h ∧ C.PosDef ∧ HasMoments env g m C ∧
    HasMoments env h m C

end Verif
