import Mathlib.Data.Real.Basic
import Mathlib.Data.List.Sort

/-!
# Specification of the reported statistics (C88, C89)
-/

namespace Verif

/-- `m` is the average of the numbers and `s` the root of their average squared distance from `m`. -/
def Summary (l : List ℝ) (m s : ℝ) : Prop :=
  m * l.length = l.sum ∧ 0 ≤ s ∧ s ^ 2 * l.length = (l.map fun x => (x - m) ^ 2).sum

/-- `v` is the percentile `q` of the numbers in `x`: with `y` the numbers in increasing order, the value at position `q/100 · (N-1)` of the
piecewise linear function through `y 0, …, y (N-1)`. -/
def IsPercentile (x : List ℝ) (q v : ℝ) : Prop :=
  ∃ y : List ℝ, y.Perm x ∧ y.Pairwise (· ≤ ·) ∧ ∃ (k : ℕ) (t : ℝ), 0 ≤ t ∧ t < 1 ∧ (k : ℝ) + t = q / 100 * ((x.length : ℝ) - 1) ∧
    (t = 0 ∧ y[k]? = some v ∨ ∃ a b, y[k]? = some a ∧ y[k + 1]? = some b ∧ v = (1 - t) * a + t * b)

end Verif
