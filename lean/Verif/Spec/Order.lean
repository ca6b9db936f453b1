import Verif.Spec.Posterior
import Mathlib.MeasureTheory.Function.L2Space

/-!
# Specification of the comparison of covariances (C86)

Nothing here refers to the model of the program.
-/

namespace Verif

open Matrix MeasureTheory

variable {n k : ℕ}

/-- No linear combination of the components has a larger variance under `C` than under `C'`. -/
def Below (C C' : Matrix (Fin n) (Fin n) ℝ) : Prop := ∀ u : Fin n → ℝ, u ⬝ᵥ C *ᵥ u ≤ u ⬝ᵥ C' *ᵥ u

/-- The estimate `m` of the random vector `x` does not promise too much: its error has mean zero, and no linear combination of its
components has a mean square above the one according to `C`. -/
structure Conservative {Ω : Type*} [MeasurableSpace Ω] (ℙ : Measure Ω) (x m : Ω → Fin n → ℝ) (C : Matrix (Fin n) (Fin n) ℝ) : Prop where
  finite : ∀ a, MemLp (fun ω => x ω a - m ω a) 2 ℙ
  mean : ∀ a, ∫ ω, (x ω a - m ω a) ∂ℙ = 0
  below : ∀ u : Fin n → ℝ, ∫ ω, (u ⬝ᵥ (x ω - m ω)) ^ 2 ∂ℙ ≤ u ⬝ᵥ C *ᵥ u

/-- The estimate `m` of the random vector `x` does not promise too little: its error has mean zero, and no linear combination of its
components has a mean square below the one according to `C`. -/
structure Overconfident {Ω : Type*} [MeasurableSpace Ω] (ℙ : Measure Ω) (x m : Ω → Fin n → ℝ) (C : Matrix (Fin n) (Fin n) ℝ) : Prop where
  finite : ∀ a, MemLp (fun ω => x ω a - m ω a) 2 ℙ
  mean : ∀ a, ∫ ω, (x ω a - m ω a) ∂ℙ = 0
  above : ∀ u : Fin n → ℝ, u ⬝ᵥ C *ᵥ u ≤ ∫ ω, (u ⬝ᵥ (x ω - m ω)) ^ 2 ∂ℙ

namespace StateSpace

/-- The same model with other covariances. -/
def withNoise (L : StateSpace n k) (P Q : Matrix (Fin n) (Fin n) ℝ) (R : Matrix (Fin k) (Fin k) ℝ) : StateSpace n k :=
  { L with P0 := P, Q := Q, R := R }

/-- The same model when only the components `s 0, s 1, …` of the measurements are recorded. -/
def withSensors {k' : ℕ} (L : StateSpace n k) (s : Fin k' → Fin k) : StateSpace n k' :=
  { L with H := fun i => (L.H i).submatrix s id, c := fun i => L.c i ∘ s, R := L.R.submatrix s s }

end StateSpace

end Verif
