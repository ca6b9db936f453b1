import Verif.Spec.Database

/-!
# Specification of the tables that are reported on (C88)

Tables are written out, independently of the code that creates and fills them.
-/

namespace Verif

/-- One stored result. -/
structure Result where
  transform : String
  quantity : String
  seed : ℤ
  dim : ℕ
  iter : ℕ
  power : ℝ
  damping : ℝ
  rmse : ℝ
  nll : ℝ

namespace Result

/-- The two scores. -/
def score (r : Result) : ℝ × ℝ := (r.rmse, r.nll)

/-- The table of the sweep over the turning target. -/
def turnTable (l : List Result) : Table :=
  ⟨["Transform", "Quantity", "Seed", "Iter", "Power", "Damping", "RMSE", "NLL"],
    ["Transform", "Quantity", "Seed", "Iter", "Power", "Damping"], l.map fun r =>
      [.text r.transform, .text r.quantity, .num r.seed, .num r.iter, .num r.power, .num r.damping, .num r.rmse, .num r.nll]⟩

/-- The table of the sweep over Lorenz 96. -/
def lorenzTable (l : List Result) : Table :=
  ⟨["Transform", "Seed", "dim", "Iter", "Power", "Damping", "RMSE", "NLL"], ["Transform", "Seed", "dim", "Iter", "Power", "Damping"],
    l.map fun r => [.text r.transform, .num r.seed, .num r.dim, .num r.iter, .num r.power, .num r.damping, .num r.rmse, .num r.nll]⟩

/-- The table of the iterated smoother on the turning target. -/
def iteratedTurnTable (l : List Result) : Table :=
  ⟨["Quantity", "Seed", "Iter", "RMSE", "NLL"], ["Quantity", "Seed", "Iter"],
    l.map fun r => [.text r.quantity, .num r.seed, .num r.iter, .num r.rmse, .num r.nll]⟩

/-- The table of the iterated smoother on Lorenz 96. -/
def iteratedLorenzTable (l : List Result) : Table :=
  ⟨["dim", "Seed", "Iter", "RMSE", "NLL"], ["dim", "Seed", "Iter"],
    l.map fun r => [.num r.dim, .num r.seed, .num r.iter, .num r.rmse, .num r.nll]⟩

end Result

end Verif
