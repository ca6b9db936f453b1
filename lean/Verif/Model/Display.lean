import Verif.Model.Database
import Mathlib.Data.List.Sort
import Mathlib.Algebra.Order.Floor.Ring
import Mathlib.Analysis.SpecialFunctions.Sqrt

/-!
# `Experiments/DisplayResults.py`

What is printed is modelled by the numbers in it; `nan` (with a `RuntimeWarning`) is `none`.
-/

namespace Verif

namespace Display

/-- Mean and standard deviation as printed on one side of a line. -/
structure Stat where
  mean : ℝ
  std : ℝ

/-- `a.mean()` and `a.std()` of the numbers in an array: both `nan` for an empty array. -/
noncomputable def stats (l : List ℝ) : Option Stat :=
  if l = [] then none
  else
    let μ := l.sum / l.length
    some ⟨μ, Real.sqrt ((l.map fun x => (x - μ) ^ 2).sum / l.length)⟩

open Classical in
/-- `db.execute("SELECT col FROM table WHERE c₁=v₁ AND …").fetchall()`: the cells in order of insertion; an unknown table or column is
an `OperationalError`. -/
noncomputable def select (table col : String) (conds : List (String × Cell)) : PyM Conn (List Cell) := do
  let c ← PyM.get
  match c.work table with
  | none => PyM.raise .sql
  | some t =>
    if col ∈ t.cols ∧ ∀ q ∈ conds, q.1 ∈ t.cols then
      return (t.rows.filter fun r => conds.all fun q => decide (Table.cell t.cols r q.1 = q.2 ∧ q.2 ≠ .null)).map fun r =>
        Table.cell t.cols r col
    else PyM.raise .sql

/-- The numbers in `np.array(rows)`.  `NULL` comes back as `None` and text as `str`, for which `mean` is a `TypeError`; other cells are
outside the model. -/
def numbers : List Cell → Py (List ℝ)
  | [] => .ok []
  | .num x :: l => do return x :: (← numbers l)
  | .null :: _ => .error .type
  | .text _ :: _ => .error .type
  | _ :: _ => .error .outOfModel

/-- One printed line: both queries with the same conditions, then the statistics (e.g. `Experiments/DisplayResults.py:15-18`,
`20-23`). -/
noncomputable def line (table : String) (conds : List (String × Cell)) : PyM Conn (Option Stat × Option Stat) := do
  let r ← select table "RMSE" conds
  let l ← select table "NLL" conds
  let r ← PyM.lift (numbers r)
  let l ← PyM.lift (numbers l)
  return (stats r, stats l)

/-- The lines for the powers in a list (`for power in power_list`). -/
noncomputable def lines (table : String) (conds : ℝ → List (String × Cell)) : List ℝ → PyM Conn (List (Option Stat × Option Stat))
  | [] => pure []
  | p :: ps => do
    let a ← line table (conds p)
    let l ← lines table conds ps
    return a :: l

/-- The section on the growth model (`Experiments/DisplayResults.py:8-23`): the line "Kalman Smoother" and those of the powers.  The
script has `power_list = [1.0, 0.8, 0.6, 0.4, 0.2]`, `damping = 0.2` and `trans = 'MCT'`. -/
noncomputable def growth (trans : String) (damping : ℝ) (powers : List ℝ) :
    PyM Conn ((Option Stat × Option Stat) × List (Option Stat × Option Stat)) := do
  let base ← line "UNGM_EXP" [("Power", .num 1), ("Damping", .num 1), ("Transform", .text trans), ("Iter", .num 1)]
  let rest ← lines "UNGM_EXP"
    (fun p => [("Power", .num p), ("Damping", .num damping), ("Transform", .text trans), ("Iter", .num 50)]) powers
  return (base, rest)

/-- The section on the turning target (`Experiments/DisplayResults.py:31-49`); the script has `damping = 1.0`, `trans = 'MCT'`,
`quant = 'angle'`. -/
noncomputable def turn (trans quant : String) (damping : ℝ) (powers : List ℝ) :
    PyM Conn ((Option Stat × Option Stat) × List (Option Stat × Option Stat)) := do
  let base ← line "BOTT_EXP"
    [("Power", .num 1), ("Damping", .num 1), ("Transform", .text trans), ("Quantity", .text quant), ("Iter", .num 1)]
  let rest ← lines "BOTT_EXP"
    (fun p => [("Power", .num p), ("Damping", .num damping), ("Transform", .text trans), ("Quantity", .text quant), ("Iter", .num 50)])
    powers
  return (base, rest)

/-! ## `remove_outliers` -/

/-- `np.percentile(x, q)` of a nonempty array (linear interpolation between the order statistics). -/
noncomputable def percentile (x : List ℝ) (q : ℝ) : ℝ :=
  let y := x.insertionSort (· ≤ ·)
  let h := q / 100 * ((x.length : ℝ) - 1)
  let lo := ⌊h⌋₊
  let hi := min (lo + 1) (x.length - 1)
  y.getD lo 0 + (y.getD hi 0 - y.getD lo 0) * (h - lo)

open Classical in
/-- `np.where(p(x))[0]`. -/
noncomputable def whereIdx (x : List ℝ) (p : ℝ → Prop) : List ℕ := (List.range x.length).filter fun i => decide (p (x.getD i 0))

/-- `remove_outliers` (`Experiments/DisplayResults.py:54-72`) for an array of shape `(N,)`.  If no position is left then `np.array(idxs)`
is an empty array of floats and `x[idxs]` an `IndexError`; the same happens for an empty `x`, whose percentiles are `nan` (with older
versions of numpy already `np.percentile` raises `IndexError`). -/
noncomputable def removeOutliers (x : List ℝ) (outlierIdxs : Option (List ℕ)) (dontRemove : Bool) : Py (Option (List ℕ) × List ℝ) :=
  if dontRemove then .ok (none, x)
  else
    let out : List ℕ := match outlierIdxs with
      | some l => l
      | none =>
        let first := percentile x 25
        let third := percentile x 75
        let iqr := third - first
        let upper := third + 1.5 * iqr
        let lower := first - 1.5 * iqr
        whereIdx x (· > upper) ++ whereIdx x (· < lower)
    let idxs := (List.range x.length).filter fun i => i ∉ out
    if idxs = [] then .error .index else .ok (some out, idxs.map fun i => x.getD i 0)

/-- The section on Lorenz 96 for one dimension (`Experiments/DisplayResults.py:84-97`); the script has `trans = 'UT'`, `power = 1.0`, and
calls `remove_outliers` with `dont_remove=True` only. -/
noncomputable def lorenz (trans : String) (power : ℝ) (dim : ℕ) :
    PyM Conn ((Option Stat × Option Stat) × (Option Stat × Option Stat)) := do
  let base : List (String × Cell) := [("Power", .num 1), ("Damping", .num 1), ("Transform", .text trans), ("dim", .num dim), ("Iter", .num 0)]
  let last : List (String × Cell) :=
    [("Power", .num power), ("Damping", .num 1), ("Transform", .text trans), ("dim", .num dim), ("Iter", .num 9)]
  let rb ← select "L96_EXP" "RMSE" base
  let lb ← select "L96_EXP" "NLL" base
  let r ← select "L96_EXP" "RMSE" last
  let l ← select "L96_EXP" "NLL" last
  let rb ← PyM.lift (numbers rb)
  let lb ← PyM.lift (numbers lb)
  let r ← PyM.lift (numbers r)
  let l ← PyM.lift (numbers l)
  let (out, lb) ← PyM.lift (removeOutliers lb none true)
  let (_, l) ← PyM.lift (removeOutliers l out true)
  let (_, rb) ← PyM.lift (removeOutliers rb out true)
  let (_, r) ← PyM.lift (removeOutliers r out true)
  return ((stats rb, stats lb), (stats r, stats l))

/-! ## The sections on the iterated smoother -/

/-- `np.array(list).mean()` and `.std()` for a list of results of `fetchall`: they must all have the same length, otherwise `np.array`
raises `ValueError` (numpy from 1.24 on). -/
noncomputable def stackStats (l : List (List ℝ)) : Py (Option Stat) :=
  if ∀ a ∈ l, ∀ b ∈ l, a.length = b.length then .ok (stats l.flatten) else .error .value

/-- The loop `for seed in SEEDS` (e.g. `Experiments/DisplayResults.py:108-112`). -/
noncomputable def perSeed (table : String) (conds : ℤ → List (String × Cell)) : List ℤ → PyM Conn (List (List ℝ) × List (List ℝ))
  | [] => pure ([], [])
  | seed :: seeds => do
    let r ← select table "RMSE" (conds seed)
    let l ← select table "NLL" (conds seed)
    let rest ← perSeed table conds seeds
    let r ← PyM.lift (numbers r)
    let l ← PyM.lift (numbers l)
    return (r :: rest.1, l :: rest.2)

/-- One of the three sections (`Experiments/DisplayResults.py:106-115`, `121-131`, `136-146`): the two printed lines. -/
noncomputable def smoother (table : String) (conds : ℤ → List (String × Cell)) (seeds : List ℤ) :
    PyM Conn (Option Stat × Option Stat) := do
  let p ← perSeed table conds seeds
  let r ← PyM.lift (stackStats p.1)
  let l ← PyM.lift (stackStats p.2)
  return (r, l)

/-- The conditions of the growth section (`Experiments/DisplayResults.py:109`). -/
def growthConds (iter : ℕ) (seed : ℤ) : List (String × Cell) := [("Seed", .num seed), ("Iter", .num iter)]

/-- The conditions of the turn section (`Experiments/DisplayResults.py:125`). -/
def turnConds (quantity : String) (iter : ℕ) (seed : ℤ) : List (String × Cell) :=
  [("Quantity", .text quantity), ("Seed", .num seed), ("Iter", .num iter)]

/-- The conditions of the Lorenz 96 section (`Experiments/DisplayResults.py:140`). -/
def lorenzConds (dim iter : ℕ) (seed : ℤ) : List (String × Cell) := [("dim", .num dim), ("Seed", .num seed), ("Iter", .num iter)]

end Display

end Verif
