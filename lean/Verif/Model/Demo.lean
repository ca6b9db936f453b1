import Verif.Model.Sweep
import Verif.Model.Plot
import Verif.Model.Systems

/-!
# `Notebooks/Demo.ipynb`

Filter, smoother and expectation propagation on simulated data of the growth model (line numbers are those of the file).  What is drawn is
modelled by the numbers handed to matplotlib, what is printed by the numbers printed (before rounding).
-/

namespace Verif

namespace Demo

/-- The copy of a reference under `deepcopy` of the list `nodes`, if the copies are allocated from `base` on.  An object that occurs
twice is copied once. -/
def moved (nodes : List Ref) (base : ℕ) (r : Ref) : Ref := if r ∈ nodes then base + nodes.idxOf r else r

/-- The copy of a node: links and bound methods refer to the copies.  Arrays, Gaussians, functions and the system are copied as well; in
the model these are values. -/
def copyNode (nodes : List Ref) (base : ℕ) (n : Node) : Node :=
  { n with
    next := n.next.map (moved nodes base)
    prev := n.prev.map (moved nodes base)
    fwdUpdate := n.fwdUpdate.map fun p => (moved nodes base p.1, p.2)
    measUpdate := n.measUpdate.map fun p => (moved nodes base p.1, p.2)
    backUpdate := n.backUpdate.map fun p => (moved nodes base p.1, p.2) }

/-- `deepcopy(nodes)` (`Notebooks/Demo.ipynb:492`).  All nodes that can be reached from a list made by `build_nodes` are in it; a reference
to another node would be followed too, here it is kept. -/
def deepcopy (nodes : List Ref) : PyM Heap (List Ref) := fun h =>
  (.ok (nodes.map (moved nodes h.size)),
    { get := fun q =>
        if h.size ≤ q then
          match nodes[q - h.size]? with
          | some r => copyNode nodes h.size (h.get r)
          | none => h.get q
        else h.get q
      size := h.size + nodes.length })

/-- `np.array(l)` for arrays of shape `(n,)`, as rows; other shapes are not modelled. -/
noncomputable def stackRows (l : List Arr) : Py Arr :=
  match l.head? with
  | some (@Arr.v n _) =>
    if ∀ a ∈ l, a.shape = [n] then .ok (.m (Matrix.of fun (t : Fin l.length) (i : Fin n) => (l[t]).entries.getD i 0))
    else .error .outOfModel
  | _ => .error .outOfModel

/-- `plot_1d_data(np.array(l).T, …)` (`Notebooks/Demo.ipynb:64`, `178-180`). -/
noncomputable def plotColumns (l : List Arr) : Py (List Plot.Draw) := do
  match ← stackRows l with
  | .m M => Plot.plot1d M.transpose
  | _ => .error .outOfModel

/-- What the cells on filtering and smoothing show: the lines of the filter, the smoother and the true states; rmse and nll of both. -/
structure Classic where
  lines : List Plot.Draw
  filter : ℝ × ℝ
  smoother : ℝ × ℝ

/-- Filter and smoother (`Notebooks/Demo.ipynb:135-137`, `176-180`, `191-201`). -/
noncomputable def classic (env : Env) (transform measTransform : Transform) (sys : Sys) (X y : List Arr) : Py Classic := do
  let f := KFS.init transform sys (some measTransform)
  let filterResult ← f.kalmanFilter env y none 0 none
  let smootherResult ← f.kalmanSmoother env filterResult none
  let filterMeans ← filterResult.mapM (Plot.meanOf env)
  let smootherMeans ← smootherResult.mapM (Plot.meanOf env)
  let a ← plotColumns filterMeans
  let b ← plotColumns smootherMeans
  let c ← plotColumns X
  let filterRmse ← Metrics.rmse env filterResult X
  let filterNll ← Metrics.nll env filterResult X
  let smootherRmse ← Metrics.rmse env smootherResult X
  let smootherNll ← Metrics.nll env smootherResult X
  return { lines := a ++ b ++ c, filter := (filterRmse, filterNll), smoother := (smootherRmse, smootherNll) }

/-- Estimator and nodes (`Notebooks/Demo.ipynb:220-227`, `244-248` and `453-463`). -/
noncomputable def buildGraph (env : Env) (transform measTransform : Transform) (sys : Sys) (timesteps : ℕ) (y : List Arr)
    (power damping : ℝ) : PyM Heap (List Ref) := do
  let estim : Estimator := ⟨transform, measTransform, some sys.Q, some sys.R, power, damping⟩
  let nodes ← buildNodes env timesteps 1 none none
  let nodes ← nodeEstimator env nodes estim
  nodeSystem nodes sys y none

/-- `plot_gaussian_node(nodes, X, …)` (`Notebooks/Demo.ipynb:283`, `376`, `527`); matplotlib makes an array of the tuple `X`. -/
noncomputable def picture (env : Env) (nodes : List Ref) (X : List Arr) : PyM Heap (List Plot.Draw) := do
  let h ← PyM.get
  let truth ← PyM.lift (stackRows X)
  PyM.lift (Plot.plotGaussianNode env (nodes.map h.get) (some truth))

/-- `node_metrics(nodes, X)` (`Notebooks/Demo.ipynb:322`, `408`, `493`). -/
noncomputable def metrics (env : Env) (nodes : List Ref) (X : List Arr) : PyM Heap (ℝ × ℝ) := do
  let h ← PyM.get
  PyM.lift (Metrics.nodeMetrics env h nodes X)

/-- Some passes, the picture, the metrics (`Notebooks/Demo.ipynb:278-283`, `322` with one pass; `370-376`, `408` with nine). -/
noncomputable def iterate (env : Env) (nodes : List Ref) (X : List Arr) (n : ℕ) : PyM Heap (List Plot.Draw × ℝ × ℝ) := do
  PyM.forEach (List.range n) fun _ => epFwdBack env nodes
  let p ← picture env nodes X
  let m ← metrics env nodes X
  return (p, m)

/-- The loop of the damped iterations (`Notebooks/Demo.ipynb:490-495`): `nodes_list` with `rmse_list` and `nll_list`. -/
noncomputable def loop (env : Env) (nodes : List Ref) (X : List Arr) : ℕ → PyM Heap (List (List Ref × ℝ × ℝ))
  | 0 => pure []
  | n + 1 => do
    epFwdBack env nodes
    let copy ← deepcopy nodes
    let m ← metrics env nodes X
    let rest ← loop env nodes X n
    return (copy, m) :: rest

/-- `axs[i].plot(value)` for `rmse_list` and `nll_list` (`Notebooks/Demo.ipynb:499-502`): the times are the indices. -/
def curves (l : List (ℝ × ℝ)) : List Plot.Draw :=
  [.line (List.range l.length) (l.map fun m => [m.1]), .line (List.range l.length) (l.map fun m => [m.2])]

/-- `plot_smoother_results` (`Notebooks/Demo.ipynb:521-541`, called in lines `564-568`): pictures of some of the copies, with the iteration, the
rmse and the nll in the title.  An index beyond the list is an `IndexError`. -/
noncomputable def results (env : Env) (X : List Arr) (all : List (List Ref × ℝ × ℝ)) : List ℕ → PyM Heap (List (List Plot.Draw × ℕ × ℝ × ℝ))
  | [] => pure []
  | k :: iters =>
    match all[k]? with
    | none => PyM.raise .index
    | some (nodes, m) => do
      let p ← picture env nodes X
      let rest ← results env X all iters
      return (p, k + 1, m) :: rest

/-- What the notebook shows. -/
structure Shown where
  truth : List Plot.Draw
  classic : Classic
  first : List Plot.Draw × ℝ × ℝ
  tenth : List Plot.Draw × ℝ × ℝ
  damped : List Plot.Draw
  chosen : List (List Plot.Draw × ℕ × ℝ × ℝ)

/-- The notebook, on simulated data (`Notebooks/Demo.ipynb:56-61` makes the data for `timesteps = 100`; `select_transform` is the function of
`Experiments/EP_FullSweep.py` with other defaults for the number of samples, `Notebooks/Demo.ipynb:84-102`, and is called three times with the
same result). -/
noncomputable def run (env : Env) (jac : Jac) (draw : Draw) (timesteps : ℕ) (data : List (Arr × Arr)) : PyM Heap Shown := do
  let system ← PyM.lift UNGM.init
  let X := data.map Prod.fst
  let y := data.map Prod.snd
  let truth ← PyM.lift (plotColumns X)
  let (t, m) ← PyM.lift (selectTransform "UT" 1 50000)
  let t := t.call env jac draw
  let m := m.call env jac draw
  let cl ← PyM.lift (classic env t m system X y)
  let nodes ← buildGraph env t m system timesteps y 1 1
  let first ← iterate env nodes X 1
  let tenth ← iterate env nodes X 9
  let nodes ← buildGraph env t m system timesteps y 0.8 0.8
  let l ← loop env nodes X 50
  let chosen ← results env X l [0, 9, 49]
  return { truth := truth, classic := cl, first := first, tenth := tenth, damped := curves (l.map Prod.snd), chosen := chosen }

end Demo

end Verif
