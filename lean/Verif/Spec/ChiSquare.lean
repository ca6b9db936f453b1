import Mathlib.MeasureTheory.Constructions.Pi
import Mathlib.Probability.Distributions.Gaussian.Real

/-!
# Specification of the distribution of normalised errors (C107)
-/

namespace Verif

open MeasureTheory

/-- The chi-square distribution with `n` degrees of freedom: that of the sum of the squares of `n` independent standard normal numbers. -/
noncomputable def chiSquare (n : ℕ) : Measure ℝ := (Measure.pi fun _ : Fin n => ProbabilityTheory.gaussianReal 0 1).map fun z => ∑ a, z a ^ 2

end Verif
