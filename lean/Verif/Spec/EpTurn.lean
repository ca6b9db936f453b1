import Verif.Spec.Database

/-!
# Specification of the result table of `Experiments/EP_Sweep_BearingsOnly.py` (C91)

Rows are written out, independently of the insertion code.
-/

namespace Verif

/-- A row: setting, quantity, iteration, metrics. -/
noncomputable def turnRow (transform : String) (seed : ℤ) (power damping iter : ℝ) (quantity : String) (rmse nll : ℝ) : Row :=
  [.text transform, .text quantity, .num seed, .num iter, .num power, .num damping, .num rmse, .num nll]

/-- The three rows of one pass. -/
noncomputable def turnPass (transform : String) (seed : ℤ) (power damping iter : ℝ) (c : Metrics.Components) : List Row :=
  [turnRow transform seed power damping iter "position" c.posRmse c.posNll,
    turnRow transform seed power damping iter "velocity" c.velRmse c.velNll,
    turnRow transform seed power damping iter "angle" c.angRmse c.angNll]

/-- The table with the given rows. -/
def turnTable (rows : List Row) : Table :=
  ⟨["Transform", "Quantity", "Seed", "Iter", "Power", "Damping", "RMSE", "NLL"],
    ["Transform", "Quantity", "Seed", "Iter", "Power", "Damping"], rows⟩

/-- A stored row makes the sweep skip a setting: same transform, seed, power and damping, and iteration fifty, whatever the
quantity. -/
def TurnMarks (seed : ℤ) (s : Setting) (row : Row) : Prop :=
  ∃ q, row.take 6 = [.text s.transId, q, .num seed, .num 50, .num s.power, .num s.damping]

/-- The rows of the tables of simulated data and of experiments; none if a table does not exist. -/
def TurnHolds (cfg : Config) (file : Tables) (st : List Row × List Row) : Prop :=
  (file cfg.dynTable = some (dynTable st.1) ∨ file cfg.dynTable = none ∧ st.1 = []) ∧
    (file cfg.expTable = some (turnTable st.2) ∨ file cfg.expTable = none ∧ st.2 = [])

/-- The rows of whole passes: position, velocity and angle of one pass after the other, nothing else. -/
def WholePasses (rows : List Row) : Prop :=
  ∃ gs : List (List Row), rows = gs.flatten ∧
    ∀ g ∈ gs, ∃ (transform : String) (seed : ℤ) (power damping iter : ℝ) (c : Metrics.Components),
      g = turnPass transform seed power damping iter c

end Verif
