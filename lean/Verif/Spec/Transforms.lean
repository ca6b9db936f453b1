import Verif.Model.Transforms
import Verif.Spec.Gaussian
import Mathlib.Analysis.Calculus.FDeriv.Pi
import Mathlib.Analysis.Calculus.FDeriv.Linear
import Mathlib.Analysis.Calculus.Deriv.Basic

/-!
# Vocabulary for stating properties of transforms
-/

namespace Verif

open Matrix

/-- `func` applies `x ↦ A x + b` to every row `x` of a two-dimensional array (`X Aᵀ` has the rows `A xᵢ`). -/
def AffineRows (func : Func) {k n : ℕ} (A : Matrix (Fin k) (Fin n) ℝ) (b : Fin k → ℝ) : Prop :=
  ∀ (N : ℕ) (X : Matrix (Fin N) (Fin n) ℝ), func (.m X) = .ok (.m (X * Aᵀ + of fun _ j => b j))

/-- `func` maps a vector of length `n` to the vector `F x` of length `k`. -/
def VecFunc (func : Func) {k n : ℕ} (F : (Fin n → ℝ) → Fin k → ℝ) : Prop :=
  ∀ x : Fin n → ℝ, func (.v x) = .ok (.v (F x))

/-- `func` maps a vector of length `n` to an array of shape `(1, k)` holding `F x` (as the tracking models and L96 do). -/
def RowFunc (func : Func) {k n : ℕ} (F : (Fin n → ℝ) → Fin k → ℝ) : Prop :=
  ∀ x : Fin n → ℝ, func (.v x) = .ok (.m (r := 1) (of fun _ j => F x j))

/-- The contract of `autograd.jacobian` on differentiable functions of a vector: the result has shape
`func(x).shape + x.shape` and holds the partial derivatives. -/
def CorrectJac (jac : Jac) : Prop :=
  ∀ {k n : ℕ} (func : Func) (F : (Fin n → ℝ) → Fin k → ℝ) (F' : (Fin n → ℝ) →L[ℝ] (Fin k → ℝ)) (x : Fin n → ℝ),
    HasFDerivAt F F' x →
    (VecFunc func F → ∃ t, jac func (.v x) = .ok t ∧ t.shape = [k, n] ∧
      ∀ (i : Fin k) (j : Fin n), t.get [i, j] = F' (Pi.single j 1) i) ∧
    (RowFunc func F → ∃ t, jac func (.v x) = .ok t ∧ t.shape = [1, k, n] ∧
      ∀ (i : Fin k) (j : Fin n), t.get [0, i, j] = F' (Pi.single j 1) i)

/-- The matrix of a linear map in the standard bases: the Jacobian matrix, if the map is a derivative. -/
noncomputable abbrev jacMat {k n : ℕ} (F' : (Fin n → ℝ) →L[ℝ] (Fin k → ℝ)) : Matrix (Fin k) (Fin n) ℝ :=
  of fun i j => F' (Pi.single j 1) i

/-- A covariance-like array: symmetric positive semidefinite, or a nonnegative scalar. -/
def ArrPSD : Arr → Prop
  | .s a => 0 ≤ a
  | .v _ => False
  | @Arr.m r c M => ∃ h : r = c, (M.submatrix id (Fin.cast h)).PosSemidef

/-- The sample mean of the rows of `X`. -/
noncomputable def sampleMean {N n : ℕ} (X : Matrix (Fin N) (Fin n) ℝ) : Fin n → ℝ := fun i => (∑ k, X k i) / N

/-- The unbiased sample covariance of the rows of `X`. -/
noncomputable def sampleCov {N n : ℕ} (X : Matrix (Fin N) (Fin n) ℝ) : Matrix (Fin n) (Fin n) ℝ :=
  of fun i j => (∑ k, (X k i - sampleMean X i) * (X k j - sampleMean X j)) / (N - 1)

/-- The affine map `x ↦ A x + b` as a Python function that works on vectors and on rows of matrices. -/
def affineFunc {k n : ℕ} (A : Matrix (Fin k) (Fin n) ℝ) (b : Fin k → ℝ) : Func
  | @Arr.v n' x => if h : n' = n then .ok (.v (A *ᵥ (fun j => x (Fin.cast h.symm j)) + b)) else .error .value
  | @Arr.m _ n' X =>
    if h : n' = n then .ok (.m (X.submatrix id (Fin.cast h.symm) * Aᵀ + of fun _ j => b j)) else .error .value
  | .s _ => .error .value

theorem affineFunc_rows {k n : ℕ} (A : Matrix (Fin k) (Fin n) ℝ) (b : Fin k → ℝ) :
    AffineRows (affineFunc A b) A b := by
  intro N X; simp [affineFunc]

theorem affineFunc_vec {k n : ℕ} (A : Matrix (Fin k) (Fin n) ℝ) (b : Fin k → ℝ) :
    VecFunc (affineFunc A b) (fun x => A *ᵥ x + b) := by
  intro x; simp [affineFunc]

/-- Every component of `F` is a polynomial of degree at most two in each single variable (in particular, all polynomials of
total degree at most two qualify). -/
def QuadraticInEach {k n : ℕ} (F : (Fin n → ℝ) → Fin k → ℝ) : Prop :=
  ∀ (x : Fin n → ℝ) (i : Fin k) (j : Fin n), ∃ a b c : ℝ, ∀ s, F (Function.update x j s) i = a * s ^ 2 + b * s + c

/-- The general quadratic map `x ↦ c + B x + (xᵀ Qᵢ x)ᵢ`. -/
def quadMap {k n : ℕ} (c : Fin k → ℝ) (B : Matrix (Fin k) (Fin n) ℝ) (Q : Fin k → Matrix (Fin n) (Fin n) ℝ) :
    (Fin n → ℝ) → Fin k → ℝ := fun x i => c i + (B *ᵥ x) i + x ⬝ᵥ Q i *ᵥ x

end Verif
