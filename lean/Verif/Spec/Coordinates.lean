import Verif.Spec.Kalman
import Verif.Spec.Expectation

/-!
# Vocabulary for stating that results do not depend on coordinates and units (C90)
-/

namespace Verif

open Matrix

/-- An invertible affine change of coordinates `x ↦ A x + a`, for example a change of units. -/
structure Chart (n : ℕ) where
  A : Matrix (Fin n) (Fin n) ℝ
  a : Fin n → ℝ
  det_ne : A.det ≠ 0

namespace Chart

variable {n k : ℕ}

/-- A point in the new coordinates. -/
def pt (c : Chart n) (x : Fin n → ℝ) : Fin n → ℝ := c.A *ᵥ x + c.a

/-- A covariance in the new coordinates. -/
def cov (c : Chart n) (P : Matrix (Fin n) (Fin n) ℝ) : Matrix (Fin n) (Fin n) ℝ := c.A * P * c.Aᵀ

/-- A point of the new coordinates in the old ones. -/
noncomputable def back (c : Chart n) (x : Fin n → ℝ) : Fin n → ℝ := c.A⁻¹ *ᵥ x + -(c.A⁻¹ *ᵥ c.a)

/-- A system function that is handed states in the new coordinates `c` and returns values in the new coordinates `d`: translate, call
the old function, translate the result. -/
noncomputable def restate (c : Chart n) (d : Chart k) (f : SysFunc) : SysFunc := fun x t u => do
  let x ← affineFunc c.A⁻¹ (-(c.A⁻¹ *ᵥ c.a)) x
  let y ← f x t u
  affineFunc d.A d.a y

end Chart

/-- The second state is the first one in the coordinates `c`. -/
def SameState {n : ℕ} (c : Chart n) (g g' : Gaussian) : Prop :=
  ∃ (m : Fin n → ℝ) (C : Matrix (Fin n) (Fin n) ℝ), C.PosDef ∧ g = Gaussian.ofMoment (.v m) (.m C) ∧
    g' = Gaussian.ofMoment (.v (c.pt m)) (.m (c.cov C))

/-- The second measurement is the first one in the coordinates `d`. -/
def SameMeas {k : ℕ} (d : Chart k) (y y' : Arr) : Prop := ∃ yv : Fin k → ℝ, IsVec y.squeeze yv ∧ IsVec y'.squeeze (d.pt yv)

/-- At every time both functions are differentiable functions of the state, returning a shape the Taylor transform can handle, and
the second is the first in the coordinates `c` (argument) and `d` (value). -/
def SameFunc {n k : ℕ} (c : Chart n) (d : Chart k) (f f' : SysFunc) : Prop :=
  (∀ t, ∃ F F' : (Fin n → ℝ) → Fin k → ℝ, VecFunc (fun z => f z (some t) none) F ∧ VecFunc (fun z => f' z (some t) none) F' ∧
    Differentiable ℝ F ∧ ∀ x, F' (c.pt x) = d.pt (F x)) ∨
  ((∀ t, ∃ F F' : (Fin n → ℝ) → Fin k → ℝ, RowFunc (fun z => f z (some t) none) F ∧ RowFunc (fun z => f' z (some t) none) F' ∧
    Differentiable ℝ F ∧ ∀ x, F' (c.pt x) = d.pt (F x)) ∧ n ≠ 1 ∧ k ≠ 1)

/-- At every time both functions act row by row, and the second is the first in the coordinates `c` (argument) and `d` (value). -/
def SameRows {n k : ℕ} (c : Chart n) (d : Chart k) (f f' : SysFunc) : Prop :=
  ∀ t, ∃ F F' : (Fin n → ℝ) → Fin k → ℝ, OnRows (fun z => f z (some t) none) F ∧ OnRows (fun z => f' z (some t) none) F' ∧
    ∀ x, F' (c.pt x) = d.pt (F x)

/-- The noises and the initial state of the second system are those of the first in the coordinates `c` (state) and `d` (measurement);
the time step is the same. -/
structure SameNoise {n k : ℕ} (env : Env) (c : Chart n) (d : Chart k) (Q : Matrix (Fin n) (Fin n) ℝ) (R : Matrix (Fin k) (Fin k) ℝ)
    (μ : Fin n → ℝ) (P : Matrix (Fin n) (Fin n) ℝ) (sys sys' : Sys) : Prop where
  hQ : sys.Q = .m Q
  hQ' : sys'.Q = .m (c.cov Q)
  hR : sys.R = .m R
  hR' : sys'.R = .m (d.cov R)
  init : HasMoments env sys.initState μ P
  init' : HasMoments env sys'.initState (c.pt μ) (c.cov P)
  dt : sys'.dt = sys.dt
  posQ : Q.PosDef
  posR : R.PosDef
  posP : P.PosDef

end Verif
