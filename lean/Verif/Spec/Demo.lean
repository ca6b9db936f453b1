import Verif.Spec.Metrics
import Verif.Spec.Scalar
import Verif.Model.Plot

/-!
# Specification of what the demonstration notebook shows (C109)
-/

namespace Verif

namespace Demo

/-- The times `1, …, N` on the horizontal axis. -/
def times (N : ℕ) : List ℕ := (List.range N).map (· + 1)

/-- A line through `N` numbers. -/
def curve (N : ℕ) (x : ℕ → ℝ) : Plot.Draw := .line (times N) ((List.range N).map fun i => [x i])

/-- Means and variances `est i`, as a line with a band of 1.96 standard deviations on both sides, and the true states `x i`. -/
noncomputable def bandPicture (N : ℕ) (est : ℕ → ℝ × ℝ) (x : ℕ → ℝ) : List Plot.Draw :=
  [curve N fun i => (est i).1,
    .fill (times N) ((List.range N).map fun i => some ((est i).1 - 1.96 * Real.sqrt (est i).2))
      ((List.range N).map fun i => some ((est i).1 + 1.96 * Real.sqrt (est i).2)),
    curve N x]

end Demo

end Verif
