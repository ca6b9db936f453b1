import Verif.Spec.Calibrate
import Verif.Spec.Kalman

/-!
# Specification of predicted measurements (C105)
-/

namespace Verif

open Matrix MeasureTheory

variable {Ω : Type*} [MeasurableSpace Ω] {n k : ℕ}

/-- What the user computes with `predict` and the measurement transform of the filter `K` before the measurement at time `t`, starting from
the state `prev`: the predicted measurement has mean `z` and, with the measurement noise of `K`, covariance `S`. -/
def PredictsMeasurement (K : KFS) (u : Option ℝ) (t : ℝ) (prev : Gaussian) (z : Fin k → ℝ) (S : Matrix (Fin k) (Fin k) ℝ) : Prop :=
  ∃ (pred : Gaussian) (a cr : Arr) (Z R : Matrix (Fin k) (Fin k) ℝ), K.predict prev (some t) u = .ok pred ∧
    K.measTransform (fun x => K.measurement x (some t) u) pred = .ok (a, .m Z, cr) ∧ IsVec a z ∧ K.R = .m R ∧ S = Z + R

/-- The errors of the predictions `z` of the random vectors `y` at different times are uncorrelated. -/
def Uncorrelated (ℙ : Measure Ω) (N : ℕ) (y z : Ω → ℕ → Fin k → ℝ) : Prop :=
  ∀ i < N, ∀ j < N, i ≠ j → ∀ a b, ∫ ω, (y ω i a - z ω i a) * (y ω j b - z ω j b) ∂ℙ = 0

end Verif
