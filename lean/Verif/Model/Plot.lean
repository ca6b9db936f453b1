import Verif.Model.Nodes
import Mathlib.Analysis.Real.Sqrt

/-!
# `Utils/Plot_Helper.py`

What the functions hand to matplotlib: the lines and shaded bands, without figure, axes, colours and labels.
-/

namespace Verif

namespace Plot

/-- One drawing command: `ax.plot(time, y)`, with the values of every line at each time, or `fill_between(time, lower, upper)`.
`none` stands for nan. -/
inductive Draw
  | line (time : List ℕ) (y : List (List ℝ))
  | fill (time : List ℕ) (lower upper : List (Option ℝ))

/-- `np.sqrt` of an entry; nan (and a `RuntimeWarning`) for a negative number. -/
noncomputable def root (a : ℝ) : Option ℝ := if a < 0 then none else some (Real.sqrt a)

/-- `a[0, :]`. -/
def firstRow : Arr → Py (List ℝ)
  | @Arr.m r _ M => if h : 0 < r then .ok (List.ofFn (M ⟨0, h⟩)) else .error .index
  | _ => .error .index

/-- `x.cov[0, :]` under the square root (`Utils/Plot_Helper.py:22`, `:40`); `None[0, :]` is a `TypeError`. -/
noncomputable def sigmaRow (env : Env) (g : Gaussian) : Py (List (Option ℝ)) := do
  let cov ← g.cov env
  let cov ← need .type cov
  let row ← firstRow cov
  return row.map root

/-- `x.mean` (`Utils/Plot_Helper.py:21`, `:38`).  A mean `None` makes an array of objects, on which the arithmetic of line 24 (45) is
a `TypeError`; the model raises it here. -/
noncomputable def meanOf (env : Env) (g : Gaussian) : Py Arr := do
  let mean ← g.mean env
  need .type mean

/-- `np.array([...])` needs parts of one shape.  (Old versions of numpy make an array of objects out of ragged input, new ones raise a
`ValueError`: not modelled.) -/
def stack {α : Type} (size : α → List ℕ) : List α → Py Unit
  | [] => .ok ()
  | a :: l => if ∀ b ∈ l, size b = size a then .ok () else .error .outOfModel

/-- Column 0 of `x_mean ± 1.96 * x_sigma` (`Utils/Plot_Helper.py:24-27`, `:44-45,52`) for arrays with `n` and `c` columns: the shapes must
be compatible, and there must be a column. -/
def column0 (n c : ℕ) : Py Unit :=
  match Arr.bdim n c with
  | none => .error .value
  | some 0 => .error .index
  | some _ => .ok ()

/-- `mean + 1.96 * sigma` (`Utils/Plot_Helper.py:24`). -/
noncomputable def upper (mean : ℝ) (sigma : Option ℝ) : Option ℝ := sigma.map fun s => mean + 1.96 * s

/-- `mean - 1.96 * sigma` (`Utils/Plot_Helper.py:25`). -/
noncomputable def lower (mean : ℝ) (sigma : Option ℝ) : Option ℝ := sigma.map fun s => mean - 1.96 * s

/-- Entry 0 of a row of the stacked arrays. -/
def entry0 {α : Type} (d : α) (l : List α) : α := l.headD d

/-- The rows of `x_mean`, one for each Gaussian, if the means are vectors.  Means of shape `(r, n)` make `x_mean` an array of rank three;
adding `x_sigma` of rank two then either fails or gives rank three again, and `fill_between` rejects column 0 of it, which has rank
two: `ValueError` in all cases (for `r > 0`). -/
def meanRows : List Arr → Py (List (List ℝ))
  | [] => .ok []
  | @Arr.v _ f :: l => do
    let rows ← meanRows l
    return List.ofFn f :: rows
  | @Arr.m r _ _ :: _ => if 0 < r then .error .value else .error .outOfModel
  | Arr.s _ :: _ => .error .outOfModel

/-- `plot_gaussian` (`Utils/Plot_Helper.py:20-27`).  For no data `lwr[:, 0]` is an `IndexError`. -/
noncomputable def plotGaussian (env : Env) (data : List Gaussian) : Py Draw := do
  let means ← data.mapM (meanOf env)
  stack Arr.shape means
  let sigma ← data.mapM (sigmaRow env)
  stack (fun l => [l.length]) sigma
  let xMean ← meanRows means
  match xMean.head?, sigma.head? with
  | some r, some q =>
    column0 r.length q.length
    let m0 := xMean.map (entry0 0)
    let s0 := sigma.map (entry0 none)
    return .fill (List.range data.length) (List.zipWith lower m0 s0) (List.zipWith upper m0 s0)
  | _, _ => .error .index

/-- `ax.plot(time, y)` for an array `y` of rank at most two: the first axis must be as long as `time`. -/
def plotLine (time : List ℕ) : Arr → Py Draw
  | .s a => if time.length = 1 then .ok (.line time [[a]]) else .error .value
  | @Arr.v n f => if time.length = n then .ok (.line time (List.ofFn fun i => [f i])) else .error .value
  | @Arr.m r _ M => if time.length = r then .ok (.line time (List.ofFn fun i => List.ofFn (M i))) else .error .value

/-- `plot_gaussian_node` (`Utils/Plot_Helper.py:30-52`): line of the means, band of the first component, line of the true states.  The
means may have any shape, line 39 makes rows of them; for no data it is a `ValueError`. -/
noncomputable def plotGaussianNode (env : Env) (data : List Node) (truth : Option Arr) : Py (List Draw) := do
  let means ← data.mapM fun x => meanOf env x.marginal
  stack Arr.shape means
  let xMean := means.map Arr.entries
  let time := (List.range data.length).map (· + 1)
  match xMean.head? with
  | none => .error .value
  | some r => do
    let sigma ← data.mapM fun x => sigmaRow env x.marginal
    stack (fun l => [l.length]) sigma
    match sigma.head? with
    | none => .error .index
    | some q => do
      column0 r.length q.length
      let m0 := xMean.map (entry0 0)
      let s0 := sigma.map (entry0 none)
      let out := [.line time xMean, .fill time (List.zipWith lower m0 s0) (List.zipWith upper m0 s0)]
      match truth with
      | none => return out
      | some y =>
        let l ← plotLine time y
        return out ++ [l]

/-- `a.mean(axis=0)` of an array of shape `(N, T)`; for `N = 0` numpy returns nan, outside the model. -/
noncomputable def colMean {N T : ℕ} (M : Matrix (Fin N) (Fin T) ℝ) : Py (Fin T → ℝ) :=
  if N = 0 then .error .outOfModel else .ok fun t => (∑ i, M i t) / N

/-- `_get_mean_and_std` (`Utils/Plot_Helper.py:55-60`) of an array of shape `(N, T)`. -/
noncomputable def getMeanAndStd {N T : ℕ} (data : Matrix (Fin N) (Fin T) ℝ) : Py ((Fin T → ℝ) × (Fin T → ℝ)) := do
  let mean ← colMean data
  let anomaly : Matrix (Fin N) (Fin T) ℝ := Matrix.of fun i t => data i t - mean t
  let variance ← colMean (Matrix.of fun i t => anomaly i t ^ 2)
  return (mean, fun t => Real.sqrt (variance t))

/-- `plot_1d_data` (`Utils/Plot_Helper.py:63-85`) for an array of shape `(N, T)`, as its documentation asks for. -/
noncomputable def plot1d {N T : ℕ} (data : Matrix (Fin N) (Fin T) ℝ) : Py (List Draw) := do
  let ms ← getMeanAndStd data
  let time := (List.range T).map (· + 1)
  let line := Draw.line time (List.ofFn fun t => [ms.1 t])
  if 1 < N then
    return [line, .fill time (List.ofFn fun t => some (ms.1 t - ms.2 t)) (List.ofFn fun t => some (ms.1 t + ms.2 t))]
  else return [line]

end Plot

end Verif
