import Verif.Spec.Expectation
import Mathlib.Probability.Moments.Covariance

/-!
# Functions of bounded curvature, and random vectors with given moments
-/

namespace Verif

open Matrix MeasureTheory ProbabilityTheory

/-- `F` is differentiable everywhere with derivative `F'`, and over a displacement `d` the slope of component `i` in the direction of
the displacement changes by at most `K i` times the length of `d` (both sides multiplied by the length). -/
structure CurvedAtMost {n k : ℕ} (F : (Fin n → ℝ) → Fin k → ℝ) (F' : (Fin n → ℝ) → (Fin n → ℝ) →L[ℝ] (Fin k → ℝ)) (K : Fin k → ℝ) :
    Prop where
  deriv : ∀ x, HasFDerivAt F (F' x) x
  slope : ∀ x d i, |F' (x + d) d i - F' x d i| ≤ K i * ∑ j, d j ^ 2

/-- The random vector `X` has mean `μ` and covariance `C` (and finite second moments). Nothing else is asked of its distribution. -/
structure HasMeanCov {Ω : Type*} [MeasurableSpace Ω] (p : Measure Ω) {n : ℕ} (X : Ω → Fin n → ℝ) (μ : Fin n → ℝ)
    (C : Matrix (Fin n) (Fin n) ℝ) : Prop where
  sq : ∀ j, MemLp (fun ω => X ω j) 2 p
  mean : ∀ j, p[fun ω => X ω j] = μ j
  cov : ∀ i j, cov[fun ω => X ω i, fun ω => X ω j; p] = C i j

/-- The squared distance of the random vector from a point. -/
def distSq {Ω : Type*} {n : ℕ} (X : Ω → Fin n → ℝ) (μ : Fin n → ℝ) (ω : Ω) : ℝ := ∑ j, (X ω j - μ j) ^ 2

end Verif
