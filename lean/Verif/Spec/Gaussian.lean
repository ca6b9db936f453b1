import Verif.Model.Gaussian
import Mathlib.Analysis.SpecialFunctions.Exp

/-!
# Vocabulary for stating properties of Gaussians, independent of how the code computes
-/

namespace Verif

open Matrix Gaussian

/-- `g` reads precision `P` and shift `h`. -/
def HasNatural (env : Env) (g : Gaussian) {n : ℕ} (P : Matrix (Fin n) (Fin n) ℝ) (h : Fin n → ℝ) : Prop :=
  g.precision env = .ok (some (.m P)) ∧ g.shift env = .ok (some (.v h))

/-- `g` reads mean `μ` and covariance `C`. -/
def HasMoments (env : Env) (g : Gaussian) {n : ℕ} (μ : Fin n → ℝ) (C : Matrix (Fin n) (Fin n) ℝ) : Prop :=
  g.mean env = .ok (some (.v μ)) ∧ g.cov env = .ok (some (.m C))

/-- The unnormalised density with natural parameters `(P, h)`. -/
noncomputable def unnorm {n : ℕ} (P : Matrix (Fin n) (Fin n) ℝ) (h : Fin n → ℝ) (x : Fin n → ℝ) : ℝ :=
  Real.exp (-(x ⬝ᵥ P *ᵥ x) / 2 + x ⬝ᵥ h)

/-- The unnormalised density with mean `μ` and covariance `C`. -/
noncomputable def unnormMoment {n : ℕ} (μ : Fin n → ℝ) (C : Matrix (Fin n) (Fin n) ℝ) (x : Fin n → ℝ) : ℝ :=
  Real.exp (-((x - μ) ⬝ᵥ C⁻¹ *ᵥ (x - μ)) / 2)

/-- An environment in which scipy never complains about conditioning. -/
def calmEnv : Env := ⟨fun _ => false, fun _ => false⟩
/-- An environment in which scipy always complains about conditioning. -/
def fussyEnv : Env := ⟨fun _ => true, fun _ => true⟩

theorem posDef_scalar {a : ℝ} (h : 0 < a) : (Matrix.diagonal fun _ : Fin 1 => a).PosDef :=
  Matrix.PosDef.diagonal fun _ => h

theorem posDef_two : (Matrix.diagonal ![(2 : ℝ), 3]).PosDef := by
  refine Matrix.PosDef.diagonal fun i => ?_
  fin_cases i <;> norm_num

/-- The readable attributes. -/
inductive Read
  | mean | cov | precision | shift | dim | chol

/-- What a read shows. -/
inductive Obs
  | arr (a : Option Arr) | num (d : ℕ)

/-- Reading attribute `r`: what is observed and the object afterwards. -/
noncomputable def read (env : Env) : Read → Gaussian → Py Obs × Gaussian
  | .mean, g => let r := getMean env g; (r.1.map Obs.arr, r.2)
  | .cov, g => let r := getCov env g; (r.1.map Obs.arr, r.2)
  | .precision, g => let r := getPrecision env g; (r.1.map Obs.arr, r.2)
  | .shift, g => let r := getShift env g; (r.1.map Obs.arr, r.2)
  | .dim, g => let r := getDim env g; (r.1.map Obs.num, r.2)
  | .chol, g => let r := getChol env g; (r.1.map fun a => Obs.arr (some a), r.2)

/-- The object after a history of reads (exceptions are swallowed by the caller). -/
noncomputable def afterReads (env : Env) (rs : List Read) (g : Gaussian) : Gaussian :=
  rs.foldl (fun g r => (read env r g).2) g

/-- No parametrisation is half given. -/
def Complete (g : Gaussian) : Prop :=
  (g.mode = .natural → (g.mean_ = none ↔ g.cov_ = none)) ∧
  (g.mode = .moment → (g.precision_ = none ↔ g.shift_ = none))

end Verif
