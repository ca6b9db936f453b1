import Verif.Model.Kalman
import Verif.Spec.Transforms

/-!
# Vocabulary for stating properties of filters and smoothers
-/

namespace Verif

open Matrix

/-- `a` holds the vector `y`; a vector of length one may have been squeezed to a scalar. -/
def IsVec (a : Arr) {k : ℕ} (y : Fin k → ℝ) : Prop := a = .v y ∨ a = (Arr.v y).squeeze

/-- The transform computes the exact moments of `A x + b` for every state with positive definite covariance. -/
def ExactOn (env : Env) (T : Transform) (func : Func) {k n : ℕ} (A : Matrix (Fin k) (Fin n) ℝ) (b : Fin k → ℝ) : Prop :=
  ∀ (g : Gaussian) (μ : Fin n → ℝ) (P : Matrix (Fin n) (Fin n) ℝ), HasMoments env g μ P → P.PosDef →
    ∃ y, IsVec y (A *ᵥ μ + b) ∧ T func g = .ok (y, .m (A * P * Aᵀ), .m (P * Aᵀ))

/-- An affine map `x ↦ A x + b` as a system function that ignores time and control. -/
def affineSys {k n : ℕ} (A : Matrix (Fin k) (Fin n) ℝ) (b : Fin k → ℝ) : SysFunc := fun x _ _ => affineFunc A b x

/-- A system function that is affine in the state at every time (without control) and returns a shape the Taylor transform can
handle: vectors, or rows of shape `(1, k)` if neither dimension is one. -/
def AffineSysFunc {k n : ℕ} (f : SysFunc) (A : ℝ → Matrix (Fin k) (Fin n) ℝ) (b : ℝ → Fin k → ℝ) : Prop :=
  (∀ t, VecFunc (fun z => f z (some t) none) (fun x => A t *ᵥ x + b t)) ∨
  ((∀ t, RowFunc (fun z => f z (some t) none) (fun x => A t *ᵥ x + b t)) ∧ n ≠ 1 ∧ k ≠ 1)

end Verif
