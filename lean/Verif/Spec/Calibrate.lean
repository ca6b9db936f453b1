import Verif.Model.Systems
import Verif.Spec.Metrics
import Verif.Spec.Gaussian
import Mathlib.MeasureTheory.Function.L2Space

/-!
# Specification of estimates on random data (C85)
-/

namespace Verif

open Matrix MeasureTheory

variable {Ω : Type*} [MeasurableSpace Ω] {n k : ℕ}

/-- What is assumed of the numbers drawn by `np.random.multivariate_normal`: each call returns a random vector with the mean and the
covariance that were asked for, and different calls are uncorrelated. That the numbers are normal or independent is not assumed. -/
structure FairDraws (ℙ : Measure Ω) (rng : Ω → Rng) : Prop where
  finite : ∀ j p (μ : Fin p → ℝ) C, C.PosSemidef → ∀ a, MemLp (fun ω => rng ω j p μ C a) 2 ℙ
  mean : ∀ j p (μ : Fin p → ℝ) C, C.PosSemidef → ∀ a, ∫ ω, rng ω j p μ C a ∂ℙ = μ a
  cov : ∀ j p (μ : Fin p → ℝ) C, C.PosSemidef → ∀ a b, ∫ ω, (rng ω j p μ C a - μ a) * (rng ω j p μ C b - μ b) ∂ℙ = C a b
  uncorrelated : ∀ j j', j ≠ j' → ∀ p (μ : Fin p → ℝ) C p' (μ' : Fin p' → ℝ) C', C.PosSemidef → C'.PosSemidef → ∀ a b,
    ∫ ω, (rng ω j p μ C a - μ a) * (rng ω j' p' μ' C' b - μ' b) ∂ℙ = 0

/-- The estimate `m` of the random vector `x` is calibrated: its error has mean zero and the covariance `C`. -/
structure Calibrated (ℙ : Measure Ω) (x m : Ω → Fin n → ℝ) (C : Matrix (Fin n) (Fin n) ℝ) : Prop where
  finite : ∀ a, MemLp (fun ω => x ω a - m ω a) 2 ℙ
  mean : ∀ a, ∫ ω, (x ω a - m ω a) ∂ℙ = 0
  cov : ∀ a b, ∫ ω, (x ω a - m ω a) * (x ω b - m ω b) ∂ℙ = C a b

/-- Every affine function of the first `N` measurements estimates every component of `x`, and every linear combination `u` of components,
with a mean squared error that is at least the one according to `C`. -/
def LeastVariance (ℙ : Measure Ω) (x : Ω → Fin n → ℝ) (y : Ω → ℕ → Fin k → ℝ) (N : ℕ) (C : Matrix (Fin n) (Fin n) ℝ) : Prop :=
  ∀ (β : Fin n → ℝ) (B : ℕ → Matrix (Fin n) (Fin k) ℝ) (u : Fin n → ℝ),
    u ⬝ᵥ C *ᵥ u ≤ ∫ ω, (u ⬝ᵥ (x ω - (β + ∑ j ∈ Finset.range N, B j *ᵥ y ω j))) ^ 2 ∂ℙ

/-- Simulated data with true states `x` and measurements `y`, and results with means `m` and covariances `C`. -/
structure Reports (env : Env) (N : ℕ) (data : List (Arr × Arr)) (gs : List Gaussian) (x : ℕ → Fin n → ℝ) (y : ℕ → Fin k → ℝ)
    (m : ℕ → Fin n → ℝ) (C : ℕ → Matrix (Fin n) (Fin n) ℝ) : Prop where
  data_length : data.length = N
  length : gs.length = N
  data : ∀ i < N, ∃ p, data[i]? = some p ∧ IsPoint p.1 (x i) ∧ IsPoint p.2 (y i)
  result : ∀ i < N, ∃ g, gs[i]? = some g ∧ HasMoments env g (m i) (C i)

end Verif
