import Verif.Spec.Plot
import Verif.Model.Metrics

/-!
# Specification of competing methods of estimation (C94)
-/

namespace Verif

open MeasureTheory

variable {n k : ℕ} {Ω : Type*} [MeasurableSpace Ω]

/-- The function of measurements `y 0, y 1, …` depends on the first `N` of them only. -/
def UsesFirst {α : Type*} (N : ℕ) (φ : (ℕ → Fin k → ℝ) → α) : Prop := ∀ y y', (∀ j < N, y j = y' j) → φ y = φ y'

/-- A method of estimation: for step `i` it reports the mean `m i y` and the covariance `D i y`, computed in any way from the first
`use i` of the measurements `y`. -/
structure Method (use : ℕ → ℕ) (m : ℕ → (ℕ → Fin k → ℝ) → Fin n → ℝ) (D : ℕ → (ℕ → Fin k → ℝ) → Matrix (Fin n) (Fin n) ℝ) : Prop where
  mean_uses : ∀ i, UsesFirst (use i) (m i)
  cov_uses : ∀ i, UsesFirst (use i) (D i)
  mean_measurable : ∀ i a, Measurable fun y => m i y a
  cov_measurable : ∀ i a b, Measurable fun y => D i y a b
  posDef : ∀ i y, (D i y).PosDef

/-- `Metrics.rmse` is computed for the results `fs` and for the results `gs`, and its expected square is not smaller for `gs`. -/
def NoBetterRmse (env : Env) (ℙ : Measure Ω) (data : Ω → List (Arr × Arr)) (fs gs : Ω → List Gaussian) : Prop :=
  ∃ r s : Ω → ℝ, (∀ ω, Metrics.rmse env (fs ω) ((data ω).map Prod.fst) = .ok (r ω)) ∧
    (∀ ω, Metrics.rmse env (gs ω) ((data ω).map Prod.fst) = .ok (s ω)) ∧
    ∫⁻ ω, ENNReal.ofReal (r ω ^ 2) ∂ℙ ≤ ∫⁻ ω, ENNReal.ofReal (s ω ^ 2) ∂ℙ

/-- `Metrics.nll` is computed for the results `fs` and for the results `gs`, and if the scores of the single steps of `gs` have expected
values then the expected score of `gs` is not smaller than that of `fs`. -/
def NoBetterNll (env : Env) (ℙ : Measure Ω) (N : ℕ) (data : Ω → List (Arr × Arr)) (fs gs : Ω → List Gaussian) : Prop :=
  ∃ (e f : Ω → ℝ) (l : Ω → ℕ → ℝ), (∀ ω, Metrics.nll env (fs ω) ((data ω).map Prod.fst) = .ok (e ω)) ∧ Integrable e ℙ ∧
    (∀ ω, Metrics.nll env (gs ω) ((data ω).map Prod.fst) = .ok (f ω)) ∧
    (∀ ω, ∀ i < N, ∃ g p, (gs ω)[i]? = some g ∧ (data ω)[i]? = some p ∧ g.nll env p.1 = .ok (l ω i)) ∧
    ((∀ i < N, Integrable (fun ω => l ω i) ℙ) → Integrable f ℙ ∧ ∫ ω, e ω ∂ℙ ≤ ∫ ω, f ω ∂ℙ)

/-- `N` Gaussians with the covariances `C`. -/
def Covariances (env : Env) (N : ℕ) (gs : List Gaussian) (C : ℕ → Matrix (Fin n) (Fin n) ℝ) : Prop :=
  gs.length = N ∧ ∀ i < N, ∃ g, gs[i]? = some g ∧ g.cov env = .ok (some (.m (C i)))

/-- Both scores are computed for the results `fs`, with covariances `C`, and for the results `gs`, with covariances `C'`. The expected
squares of `Metrics.rmse` are ordered, and so are the expected values of `Metrics.nll`, strictly if any covariances differ. -/
structure Outscores (env : Env) (ℙ : Measure Ω) (N : ℕ) (data : Ω → List (Arr × Arr)) (fs gs : Ω → List Gaussian)
    (C C' : ℕ → Matrix (Fin n) (Fin n) ℝ) : Prop where
  rmse : ∃ r s : Ω → ℝ, (∀ ω, Metrics.rmse env (fs ω) ((data ω).map Prod.fst) = .ok (r ω)) ∧
    (∀ ω, Metrics.rmse env (gs ω) ((data ω).map Prod.fst) = .ok (s ω)) ∧ Integrable (fun ω => r ω ^ 2) ℙ ∧ Integrable (fun ω => s ω ^ 2) ℙ ∧
    ∫ ω, r ω ^ 2 ∂ℙ ≤ ∫ ω, s ω ^ 2 ∂ℙ
  nll : (∀ i < N, Spread (C i)) → (∀ i < N, Spread (C' i)) →
    ∃ e f : Ω → ℝ, (∀ ω, Metrics.nll env (fs ω) ((data ω).map Prod.fst) = .ok (e ω)) ∧
    (∀ ω, Metrics.nll env (gs ω) ((data ω).map Prod.fst) = .ok (f ω)) ∧ Integrable e ℙ ∧ Integrable f ℙ ∧
    ∫ ω, e ω ∂ℙ ≤ ∫ ω, f ω ∂ℙ ∧ ((∃ i < N, C' i ≠ C i) → ∫ ω, e ω ∂ℙ < ∫ ω, f ω ∂ℙ)

end Verif
