import Verif.Model.Metrics

/-!
# Specification of the metrics (C58, C60, C64)
-/

namespace Verif

open Matrix

/-- A point given as a vector or as an array with one row. -/
def IsPoint {n : ℕ} (a : Arr) (x : Fin n → ℝ) : Prop := a = .v x ∨ a = .m (of fun _ : Fin 1 => x)

/-- Squared Euclidean distance. -/
def sqDist {n : ℕ} (x y : Fin n → ℝ) : ℝ := ∑ i, (x i - y i) ^ 2

/-- Root of the mean squared distance of a list of pairs. -/
noncomputable def rootMeanSq {n : ℕ} (pts : List ((Fin n → ℝ) × (Fin n → ℝ))) : ℝ :=
  Real.sqrt ((pts.map fun p => sqDist p.1 p.2).sum / pts.length)

/-- The means and true states that are compared. -/
def Compared (env : Env) {n : ℕ} (states : List Gaussian) (truths : List Arr) (pts : List ((Fin n → ℝ) × (Fin n → ℝ))) : Prop :=
  List.Forall₂ (fun p q => (∃ a, p.1.meanA env = .ok a ∧ IsPoint a q.1) ∧ IsPoint p.2 q.2) (states.zip truths) pts

/-- The variances in any two directions differ by a factor less than `2⁵² / 10⁶`. -/
def Spread {n : ℕ} (C : Matrix (Fin n) (Fin n) ℝ) : Prop :=
  ∀ u w : Fin n → ℝ, u ⬝ᵥ u = 1 → w ⬝ᵥ w = 1 → 1e6 * 2⁻¹ ^ 52 * (w ⬝ᵥ C *ᵥ w) < u ⬝ᵥ C *ᵥ u

/-- Root mean square error and mean negative log density of `N` scalar estimates `est i`, mean and variance, of the numbers `x i`. -/
noncomputable def scores (N : ℕ) (est : ℕ → ℝ × ℝ) (x : ℕ → ℝ) : ℝ × ℝ :=
  (Real.sqrt ((∑ i ∈ Finset.range N, ((est i).1 - x i) ^ 2) / N),
    (∑ i ∈ Finset.range N, (Real.log (2 * Real.pi) + Real.log (est i).2 + (x i - (est i).1) ^ 2 / (est i).2) / 2) / N)

end Verif
