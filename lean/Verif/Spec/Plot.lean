import Verif.Spec.Calibrate
import Mathlib.Probability.Distributions.Gaussian.Real

/-!
# Specification of plotted bands (C92) and of averages over runs (C93)
-/

namespace Verif

open MeasureTheory

/-- A probability that is 95 percent up to rounding. -/
def About95 (p : ℝ) : Prop := 0.95 ≤ p ∧ p ≤ 0.95001

/-- Sums of multiples of the deviations of drawn numbers from their means. -/
inductive Combination {Ω : Type*} (rng : Ω → Rng) : (Ω → ℝ) → Prop
  | zero : Combination rng fun _ => 0
  | draw (j p : ℕ) (μ : Fin p → ℝ) (C : Matrix (Fin p) (Fin p) ℝ) (hC : C.PosSemidef) (a : Fin p) :
      Combination rng fun ω => rng ω j p μ C a - μ a
  | add {X Y : Ω → ℝ} : Combination rng X → Combination rng Y → Combination rng fun ω => X ω + Y ω
  | smul (s : ℝ) {X : Ω → ℝ} : Combination rng X → Combination rng fun ω => s * X ω

/-- The numbers drawn by `np.random.multivariate_normal` have the mean and covariance asked for, different calls are uncorrelated, and
together they are normal: every combination of them has a normal distribution. -/
structure NormalDraws {Ω : Type*} [MeasurableSpace Ω] (ℙ : Measure Ω) (rng : Ω → Rng) : Prop extends FairDraws ℙ rng where
  normal : ∀ X, Combination rng X → ∃ v, ℙ.map X = ProbabilityTheory.gaussianReal 0 v

/-- The average of column `t` over the runs. -/
noncomputable def avg {N T : ℕ} (x : Matrix (Fin N) (Fin T) ℝ) (t : Fin T) : ℝ := (∑ i, x i t) / N

/-- The standard deviation of column `t` over the runs, about the average and divided by the number of runs. -/
noncomputable def spread {N T : ℕ} (x : Matrix (Fin N) (Fin T) ℝ) (t : Fin T) : ℝ := Real.sqrt ((∑ i, (x i t - avg x t) ^ 2) / N)

end Verif
