import Verif.Model.Sweep

/-!
# Specification of the result tables (C45–C50)

Rows are written out, independently of the insertion code; the key of a row is the list of its first columns.
-/

namespace Verif

open Classical in
/-- Adds a row unless a row with the same first `k` cells is there. -/
noncomputable def addRow (k : ℕ) (rows : List Row) (r : Row) : List Row :=
  if ∃ q ∈ rows, q.take k = r.take k then rows else rows ++ [r]

/-- Adds rows one after the other. -/
noncomputable def addRows (k : ℕ) (rows rs : List Row) : List Row := rs.foldl (addRow k) rows

/-- No two rows agree in their first `k` cells. -/
def Keyed (k : ℕ) (rows : List Row) : Prop := rows.Pairwise fun a b => a.take k ≠ b.take k

/-- The row of an experiment: setting, iteration, metrics, and two empty lists. -/
noncomputable def expRow (transform : String) (seed : ℤ) (power damping iter rmse nll : ℝ) : Row :=
  [.text transform, .num seed, .num iter, .num power, .num damping, .num rmse, .num nll, .pickle [], .pickle []]

/-- The rows of simulated data from time `t` on. -/
noncomputable def dynRows (seed : ℤ) : ℕ → List (Arr × Arr) → List Row
  | _, [] => []
  | t, (x, y) :: data => [.num seed, .num t, .array x, .array y] :: dynRows seed (t + 1) data

/-- An experiment table with the given rows. -/
def expTable (rows : List Row) : Table :=
  ⟨["Transform", "Seed", "Iter", "Power", "Damping", "RMSE", "NLL", "Mean", "Variance"],
    ["Transform", "Seed", "Iter", "Power", "Damping"], rows⟩

/-- A table of simulated data with the given rows. -/
def dynTable (rows : List Row) : Table := ⟨["Seed", "t", "X", "Y"], ["Seed", "t"], rows⟩

/-- The nodes after some passes. -/
noncomputable def passes (env : Env) (nodes : List Ref) : ℕ → Heap → Heap
  | 0, h => h
  | n + 1, h => (epFwdBack env nodes (passes env nodes n h)).2

/-- A stored row makes the sweep skip a setting: same transform, seed, power and damping, and iteration fifty. -/
def Marks (seed : ℤ) (s : Setting) (row : Row) : Prop :=
  row.take 5 = [.text s.transId, .num seed, .num 50, .num s.power, .num s.damping]

/-- The rows of the tables of simulated data and of experiments; none if a table does not exist. -/
def Holds (cfg : Config) (file : Tables) (st : List Row × List Row) : Prop :=
  (file cfg.dynTable = some (dynTable st.1) ∨ file cfg.dynTable = none ∧ st.1 = []) ∧
    (file cfg.expTable = some (expTable st.2) ∨ file cfg.expTable = none ∧ st.2 = [])

/-- A table with the given rows whose constraint is on the first `k` columns. -/
def keyedTable (cols : List String) (k : ℕ) (rows : List Row) : Table := ⟨cols, cols.take k, rows⟩

/-- The rows of table `name` with constraint on the first `k` columns; none if the table does not exist. -/
def Stores (cols : List String) (k : ℕ) (name : String) (file : Tables) (rows : List Row) : Prop :=
  file name = some (keyedTable cols k rows) ∨ file name = none ∧ rows = []

/-- The content of the file with the given rows in table `name`. -/
def withRows (cols : List String) (k : ℕ) (name : String) (file : Tables) (rows : List Row) : Tables :=
  Function.update file name (some (keyedTable cols k rows))

end Verif
