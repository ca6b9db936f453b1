import Verif.Spec.Expectation

/-! Gradient and Hessian of a quadratic polynomial. -/

namespace Verif

open Matrix

namespace Cubic

variable {n : ℕ} (q : Cubic n)

/-- The gradient at `μ` of a polynomial of degree at most two. -/
def grad (μ : Fin n → ℝ) : Fin n → ℝ := fun i => q.a i + ∑ j, (q.M i j + q.M j i) * μ j

/-- The Hessian matrix of a polynomial of degree at most two. -/
def hess : Matrix (Fin n) (Fin n) ℝ := of fun i j => q.M i j + q.M j i

/-- They are what they are called: Taylor's formula at every point. -/
theorem taylor (hq : q.Quadratic) (μ d : Fin n → ℝ) :
    q.eval (μ + d) = q.eval μ + q.grad μ ⬝ᵥ d + (1 / 2) * (d ⬝ᵥ q.hess *ᵥ d) := by
  simp only [eval, grad, hess, Pi.add_apply, hq _ _ _, zero_mul, Finset.sum_const_zero, add_zero, dotProduct, mulVec, of_apply]
  have e1 : ∑ i, q.a i * (μ i + d i) = ∑ i, q.a i * μ i + ∑ i, q.a i * d i := by
    simp only [mul_add, Finset.sum_add_distrib]
  have e2 : ∑ i, ∑ j, q.M i j * ((μ i + d i) * (μ j + d j)) = ∑ i, ∑ j, q.M i j * (μ i * μ j) + ∑ i, ∑ j, q.M i j * (μ j * d i) +
      ∑ i, ∑ j, q.M i j * (μ i * d j) + ∑ i, ∑ j, q.M i j * (d i * d j) := by
    simp only [← Finset.sum_add_distrib]
    exact Finset.sum_congr rfl fun i _ => Finset.sum_congr rfl fun j _ => by ring
  have e3 : ∑ i, (q.a i + ∑ j, (q.M i j + q.M j i) * μ j) * d i = ∑ i, q.a i * d i + ∑ i, ∑ j, q.M i j * (μ j * d i) +
      ∑ i, ∑ j, q.M i j * (μ i * d j) := by
    rw [Finset.sum_comm (f := fun i j => q.M i j * (μ i * d j))]
    simp only [← Finset.sum_add_distrib, add_mul, Finset.sum_mul]
    refine Finset.sum_congr rfl fun i _ => ?_
    rw [add_assoc, ← Finset.sum_add_distrib]
    congr 1
    exact Finset.sum_congr rfl fun j _ => by ring
  have e4 : ∑ i, d i * ∑ j, (q.M i j + q.M j i) * d j = 2 * ∑ i, ∑ j, q.M i j * (d i * d j) := by
    have : ∑ i, d i * ∑ j, (q.M i j + q.M j i) * d j = ∑ i, ∑ j, q.M i j * (d i * d j) + ∑ i, ∑ j, q.M j i * (d j * d i) := by
      simp only [← Finset.sum_add_distrib, Finset.mul_sum]
      exact Finset.sum_congr rfl fun i _ => Finset.sum_congr rfl fun j _ => by ring
    rw [this, Finset.sum_comm (f := fun i j => q.M j i * (d j * d i)), two_mul]
  rw [e1, e2, e3, e4]; ring

theorem hess_symm : q.hessᵀ = q.hess := by ext i j; simp only [hess, transpose_apply, of_apply]; ring

end Cubic

end Verif
