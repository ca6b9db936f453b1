import Verif.Model.Arr

/-!
# The shapes in which a measurement may be handed over (specification of C98)
-/

namespace Verif

/-- The array holds the `k` numbers `f` along one axis: a vector, a row `(1, k)`, a column `(k, 1)`, or, for a single number, the
number itself. -/
def HoldsAlong (y : Arr) {k : ℕ} (f : Fin k → ℝ) : Prop :=
  y = .v f ∨ y = .m (r := 1) (Matrix.of fun _ j => f j) ∨ y = .m (c := 1) (Matrix.of fun i _ => f i) ∨
    ∃ h : k = 1, y = .s (f (Fin.cast h.symm 0))

/-- Two lists of measurements of the same length hold the same numbers, each in its own shape. -/
def SameReadings (ys zs : List Arr) : Prop :=
  List.Forall₂ (fun y z => ∃ (k : ℕ) (f : Fin k → ℝ), HoldsAlong y f ∧ HoldsAlong z f) ys zs

end Verif
