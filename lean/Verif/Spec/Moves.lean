import Verif.Spec.Kalman

/-!
# Specification of how far estimates move (C111)
-/

namespace Verif

open Matrix

/-- The squared difference between the measurement `y` and the one predicted from the estimate `g`, in units of its predicted
covariance, is `z`. -/
def Surprise (K : KFS) (t u : Option ℝ) (g : Gaussian) (y : Arr) (z : ℝ) : Prop :=
  ∃ (k : ℕ) (pred : Gaussian) (a C : Arr) (av yv : Fin k → ℝ) (S R : Matrix (Fin k) (Fin k) ℝ), K.predict g t u = .ok pred ∧
    K.measTransform (fun x => K.measurement x t u) pred = .ok (a, .m S, C) ∧ IsVec a av ∧ IsVec y.squeeze yv ∧ K.R = .m R ∧
    z = (yv - av) ⬝ᵥ (S + R)⁻¹ *ᵥ (yv - av)

/-- In every direction the mean has moved by no more than the square root of the decrease of the variance times `z`. -/
def MovesAtMost {n : ℕ} (m m' : Fin n → ℝ) (C C' : Matrix (Fin n) (Fin n) ℝ) (z : ℝ) : Prop :=
  ∀ v : Fin n → ℝ, (v ⬝ᵥ (m' - m)) ^ 2 ≤ (v ⬝ᵥ (C - C') *ᵥ v) * z

end Verif
