import Verif.Model.Display
import Verif.Model.Plot

/-!
# The notebooks that draw the stored results

`Notebooks/PlotPerformanceAllSeeds.ipynb`, `Notebooks/PlotPerformanceSingleSeed.ipynb`, `Notebooks/ManyIterations.ipynb` and
`Notebooks/PlotHeatmap.ipynb` (line numbers are those of the files).  What is drawn is modelled by the numbers handed to matplotlib.
-/

namespace Verif

namespace Notebook

/-- None of the queries has an `ORDER BY`.  Sqlite then returns rows in the order in which it visits them: in order of insertion, or along
the index that it keeps for the `UNIQUE` constraint. -/
inductive Scan
  | rowid
  | index

/-- The kind of a value in the order of sqlite: `NULL`, numbers, text, blobs. -/
def rank : Cell → ℕ
  | .null => 0
  | .num _ => 1
  | .text _ => 2
  | .array _ => 3
  | .pickle _ => 3

/-- Strict order of values in an index.  Blobs are not compared (they do not occur in keys). -/
def cellLt : Cell → Cell → Prop
  | .num x, .num y => x < y
  | .text s, .text t => s < t
  | a, b => rank a < rank b

/-- Lexicographic order of keys. -/
def keyLe : List Cell → List Cell → Prop
  | [], _ => True
  | _ :: _, [] => False
  | a :: l, b :: m => cellLt a b ∨ a = b ∧ keyLe l m

open Classical in
/-- The rows of a table in the order in which they are visited. -/
noncomputable def Scan.visit (t : Table) (rows : List Row) : Scan → List Row
  | .rowid => rows
  | .index => rows.insertionSort fun a b => keyLe (t.key a) (t.key b)

open Classical in
/-- `cursor.execute("SELECT cols FROM table WHERE c₁=v₁ AND …").fetchall()`; an unknown table or column is an `OperationalError`. -/
noncomputable def fetch (scan : Scan) (table : String) (cols : List String) (conds : List (String × Cell)) :
    PyM Conn (List (List Cell)) := do
  let c ← PyM.get
  match c.work table with
  | none => PyM.raise .sql
  | some t =>
    if (∀ a ∈ cols, a ∈ t.cols) ∧ ∀ q ∈ conds, q.1 ∈ t.cols then
      return (scan.visit t (t.rows.filter fun r => conds.all fun q => decide (Table.cell t.cols r q.1 = q.2 ∧ q.2 ≠ .null))).map fun r =>
        cols.map (Table.cell t.cols r)
    else PyM.raise .sql

/-- A query for one column, as numbers. -/
noncomputable def column (scan : Scan) (table col : String) (conds : List (String × Cell)) : PyM Conn (List ℝ) := do
  let rows ← fetch scan table [col] conds
  PyM.lift (Display.numbers (rows.map fun r => r.headD .null))

/-! ## Curves -/

/-- `np.array(row).squeeze()[:50]` (`Notebooks/PlotPerformanceAllSeeds.ipynb:134`): a single row is squeezed to an array of rank zero,
which cannot be sliced. -/
def cut (l : List ℝ) : Py (List ℝ) := if l.length = 1 then .error .index else .ok (l.take 50)

/-- The loop over the seeds (`Notebooks/PlotPerformanceAllSeeds.ipynb:131-134`). -/
noncomputable def perSeed (scan : Scan) (table metric trans : String) (key1 : String) (v1 : ℝ) (key2 : String) (v2 : ℝ) :
    List ℤ → PyM Conn (List (List ℝ))
  | [] => pure []
  | seed :: seeds => do
    let row ← column scan table metric [("Transform", .text trans), ("Seed", .num seed), (key1, .num v1), (key2, .num v2)]
    let row ← PyM.lift (cut row)
    let rest ← perSeed scan table metric trans key1 v1 key2 v2 seeds
    return row :: rest

/-- `plot_1d_data(np.array(data))` (`Notebooks/PlotPerformanceAllSeeds.ipynb:135-137`): the rows must be of one length (old versions of
numpy make an array of objects of ragged input, new ones raise: not modelled). -/
noncomputable def plotRows (data : List (List ℝ)) : Py (List Plot.Draw) :=
  match data with
  | [] => .error .outOfModel
  | a :: l =>
    if ∀ b ∈ l, b.length = a.length then
      Plot.plot1d (Matrix.of fun (i : Fin (a :: l).length) (t : Fin a.length) => ((a :: l).getD i []).getD t 0)
    else .error .outOfModel

/-- The drawing part of `plot_experiment` (`Notebooks/PlotPerformanceAllSeeds.ipynb:130-137`) for one transform: `key1` and `key2` are the
two control variables out of `Power`, `Damping` and `Iter`, `metric` is the column (sqlite ignores its case). -/
noncomputable def plotExperiment (scan : Scan) (table metric trans : String) (key1 : String) (v1 : ℝ) (key2 : String) (v2 : ℝ)
    (seeds : List ℤ) : PyM Conn (List Plot.Draw) := do
  let data ← perSeed scan table metric trans key1 v1 key2 v2 seeds
  PyM.lift (plotRows data)

/-- The line of a single seed (`Notebooks/PlotPerformanceSingleSeed.ipynb:43-47`, `:67-69`): `np.array(data).T` has shape `(1, T)`; for no
rows the array has rank one (not modelled). -/
noncomputable def plotSingle (scan : Scan) (table metric trans : String) (power damping : ℝ) (seed : ℤ) :
    PyM Conn (List Plot.Draw) := do
  let row ← column scan table metric [("Transform", .text trans), ("Seed", .num seed), ("Power", .num power), ("Damping", .num damping)]
  if row = [] then PyM.raise .outOfModel else PyM.lift (plotRows [row])

/-- `row[0][0]`. -/
def first : List ℝ → Py ℝ
  | [] => .error .index
  | a :: _ => .ok a

/-- The queries of `first_iteration_mean` (`Notebooks/PlotPerformanceAllSeeds.ipynb:225-229`); `row[0][0]` needs a row. -/
noncomputable def firstScores (scan : Scan) (table trans : String) : List ℤ → PyM Conn (List (ℝ × ℝ))
  | [] => pure []
  | seed :: seeds => do
    let conds : List (String × Cell) :=
      [("Transform", .text trans), ("Seed", .num seed), ("Damping", .num 1), ("Power", .num 1), ("Iter", .num 1)]
    let r ← column scan table "RMSE" conds
    let r ← PyM.lift (first r)
    let l ← column scan table "NLL" conds
    let l ← PyM.lift (first l)
    let rest ← firstScores scan table trans seeds
    return (r, l) :: rest

/-- `first_iteration_mean` (`Notebooks/PlotPerformanceAllSeeds.ipynb:221-232`): the heights of the dashed lines.  For no seeds both are
nan (not modelled). -/
noncomputable def firstIterationMean (scan : Scan) (table trans : String) (seeds : List ℤ) : PyM Conn (ℝ × ℝ) := do
  let l ← firstScores scan table trans seeds
  if l = [] then PyM.raise .outOfModel
  else return ((l.map Prod.fst).sum / l.length, (l.map Prod.snd).sum / l.length)

/-! ## Heat maps -/

/-- The four arrays returned by `make_image_data`. -/
structure Image where
  rmse : Matrix (Fin 19) (Fin 19) ℝ
  nll : Matrix (Fin 19) (Fin 19) ℝ
  power : Matrix (Fin 19) (Fin 19) ℝ
  damping : Matrix (Fin 19) (Fin 19) ℝ

/-- `a.reshape(19, 19)`. -/
def reshape (l : List ℝ) : Py (Matrix (Fin 19) (Fin 19) ℝ) :=
  if l.length = 19 * 19 then .ok (Matrix.of fun i j => l.getD (i.val * 19 + j.val) 0) else .error .value

/-- The numbers in one of the four tuples made by `zip(*data)`; for other values the `TypeError` of a later average is raised here. -/
def part (rows : List (List Cell)) (k : ℕ) : Py (List ℝ) := Display.numbers (rows.map fun r => r.getD k .null)

/-- `make_image_data` (`Notebooks/PlotHeatmap.ipynb:116-134`); for no rows `zip(*data)` cannot be unpacked. -/
noncomputable def makeImageData (scan : Scan) (table trans : String) (seed : ℝ) (iters : ℕ) : PyM Conn Image := do
  let data ← fetch scan table ["RMSE", "NLL", "Power", "Damping"] [("Transform", .text trans), ("Seed", .num seed), ("Iter", .num iters)]
  if data = [] then PyM.raise .value
  else do
    let nl ← PyM.lift (part data 1)
    let rms ← PyM.lift (part data 0)
    let p ← PyM.lift (part data 2)
    let d ← PyM.lift (part data 3)
    let p ← PyM.lift (reshape p)
    let d ← PyM.lift (reshape d)
    let nl ← PyM.lift (reshape nl)
    let rms ← PyM.lift (reshape rms)
    return ⟨rms, nl, p, d⟩

/-- The loop of `all_seeds_image` (`Notebooks/PlotHeatmap.ipynb:144-147`). -/
noncomputable def images (scan : Scan) (table trans : String) (iters : ℕ) : List ℝ → PyM Conn (List Image)
  | [] => pure []
  | seed :: seeds => do
    let a ← makeImageData scan table trans seed iters
    let rest ← images scan table trans iters seeds
    return a :: rest

open Classical in
/-- `SELECT DISTINCT Seed from table` (`Notebooks/PlotHeatmap.ipynb:140-143`), in some order: the seeds of all transforms. -/
noncomputable def distinctSeeds (scan : Scan) (table : String) : PyM Conn (List ℝ) := do
  let l ← column scan table "Seed" []
  return l.dedup

/-- `all_seeds_image` (`Notebooks/PlotHeatmap.ipynb:137-151`): averages over the seeds, powers and dampings of the last one.  Without seeds
the variable `p` is not bound (not otherwise modelled). -/
noncomputable def allSeedsImage (scan : Scan) (table trans : String) (iters : ℕ) (seeds : Option (List ℤ)) : PyM Conn Image := do
  let all ← distinctSeeds scan table
  let used : List ℝ := match seeds with
    | none => all
    | some l => l.map fun s : ℤ => (s : ℝ)
  let l ← images scan table trans iters used
  match l.getLast? with
  | none => PyM.raise .outOfModel
  | some a => return ⟨Matrix.of fun i j => (l.map fun b => b.rmse i j).sum / l.length,
      Matrix.of fun i j => (l.map fun b => b.nll i j).sum / l.length, a.power, a.damping⟩

/-- `plot_sweep` (`Notebooks/PlotHeatmap.ipynb:154-163`, `:90-95`): the pixels handed to `imshow`, first index along the axis named Damping
(from 0.1 to 1 upwards), second along the axis named Power (from 0.1 to 1). -/
noncomputable def plotSweep (scan : Scan) (table trans : String) (iters : ℕ) (metric : String) (seeds : Option (List ℤ)) :
    PyM Conn (Matrix (Fin 19) (Fin 19) ℝ) := do
  let img ← allSeedsImage scan table trans iters seeds
  return if metric = "rmse" then img.rmse.transpose else img.nll.transpose

end Notebook

end Verif
