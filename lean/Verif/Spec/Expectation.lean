import Verif.Spec.Transforms
import Mathlib.Probability.Distributions.Gaussian.Multivariate
import Mathlib.Probability.HasLaw
import Mathlib.Probability.Independence.Basic

/-!
# Expectations under a normal distribution, and polynomials
-/

namespace Verif

open Matrix MeasureTheory ProbabilityTheory

/-- The expectation of `f` under the normal distribution with mean `μ` and covariance `P` (Mathlib's multivariate Gaussian measure). -/
noncomputable def expect {n : ℕ} (μ : Fin n → ℝ) (P : Matrix (Fin n) (Fin n) ℝ) (f : (Fin n → ℝ) → ℝ) : ℝ :=
  ∫ x, f x.ofLp ∂(multivariateGaussian (WithLp.toLp 2 μ) P)

/-- `func` applies `F` to every row of a two-dimensional array. -/
def OnRows (func : Func) {k n : ℕ} (F : (Fin n → ℝ) → Fin k → ℝ) : Prop :=
  ∀ (N : ℕ) (X : Matrix (Fin N) (Fin n) ℝ), func (.m X) = .ok (.m (of fun i j => F (X i) j))

/-- A function applying `F` to every row of a two-dimensional array with `n` columns. -/
def rowsFunc {k n : ℕ} (F : (Fin n → ℝ) → Fin k → ℝ) : Func
  | @Arr.m _ n' X => if h : n' = n then .ok (.m (of fun i j => F (fun l => X i (Fin.cast h.symm l)) j)) else .error .value
  | _ => .error .value

theorem rowsFunc_onRows {k n : ℕ} (F : (Fin n → ℝ) → Fin k → ℝ) : OnRows (rowsFunc F) F := by
  intro N X; simp [rowsFunc]

/-- A polynomial of degree at most three in `n` variables. -/
structure Cubic (n : ℕ) where
  c : ℝ
  a : Fin n → ℝ
  M : Fin n → Fin n → ℝ
  T : Fin n → Fin n → Fin n → ℝ

/-- Its value. -/
def Cubic.eval {n : ℕ} (q : Cubic n) (x : Fin n → ℝ) : ℝ :=
  q.c + ∑ i, q.a i * x i + ∑ i, ∑ j, q.M i j * (x i * x j) + ∑ i, ∑ j, ∑ l, q.T i j l * (x i * x j * x l)

/-- Degree at most two. -/
def Cubic.Quadratic {n : ℕ} (q : Cubic n) : Prop := ∀ i j l, q.T i j l = 0

/-- The random generator does its job for the state `N(μ, P)`: the draws of `np.random.multivariate_normal(μ, P, N)` are the first `N`
members of a sequence of (pairwise) independent random vectors with that distribution.  `draw` depends on the random outcome. -/
def IidDraws {Ω : Type*} [MeasurableSpace Ω] (p : Measure Ω) {n : ℕ} (μ : Fin n → ℝ) (P : Matrix (Fin n) (Fin n) ℝ) (draw : Ω → Draw) : Prop :=
  ∃ X : ℕ → Ω → EuclideanSpace ℝ (Fin n), (∀ i, HasLaw (X i) (multivariateGaussian (WithLp.toLp 2 μ) P) p) ∧
    (Pairwise fun i j => X i ⟂ᵢ[p] X j) ∧ ∀ ω N, draw ω N μ P = of fun (i : Fin N) j => (X i ω).ofLp j

/-- `f` is measurable and square integrable under `N(μ, P)`. -/
def SquareIntegrable {n : ℕ} (μ : Fin n → ℝ) (P : Matrix (Fin n) (Fin n) ℝ) (f : (Fin n → ℝ) → ℝ) : Prop :=
  Measurable f ∧ MemLp (fun x : EuclideanSpace ℝ (Fin n) => f x.ofLp) 2 (multivariateGaussian (WithLp.toLp 2 μ) P)

end Verif
