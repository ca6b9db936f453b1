import Verif.Model.Nodes
import Verif.Lemmas.LinAlg
import Mathlib.Analysis.Matrix.Spectrum
import Mathlib.Analysis.SpecialFunctions.Log.Basic
import Mathlib.Analysis.SpecialFunctions.Trigonometric.Basic

/-!
# `Utils/Metrics.py`, `Gaussian.nll`, and the metrics of the bearings-only experiments
-/

namespace Verif

/-! ## `scipy.stats.multivariate_normal.logpdf` as used by `Gaussian.nll` -/

/-- How scipy reads the mean: its size is the dimension; an array with one entry becomes a vector of length one, other arrays of rank
two raise `ValueError`. -/
def mvnMean : Arr → Py (Σ n : ℕ, Fin n → ℝ)
  | .v f => .ok ⟨_, f⟩
  | a => match a.entries with
    | [e] => .ok ⟨1, fun _ => e⟩
    | _ => .error .value

/-- How scipy reads the covariance for dimension `n`.  (Scalars and vectors for `n ≥ 2` are not modelled.) -/
def mvnCov (n : ℕ) : Arr → Py (Matrix (Fin n) (Fin n) ℝ)
  | @Arr.m r c C =>
    if h : r = n ∧ c = n then .ok (C.submatrix (Fin.cast h.1.symm) (Fin.cast h.2.symm)) else .error .value
  | a => match a.entries with
    | [e] => if n = 1 then .ok fun _ _ => e else .error .outOfModel
    | _ => .error .outOfModel

/-- How scipy reads a single point for dimension `n`: a vector, one row, or a number if `n = 1`.  (Batches of points are not
modelled.) -/
def mvnPoint (n : ℕ) : Arr → Py (Fin n → ℝ)
  | .s a => if n = 1 then .ok fun _ => a else .error .outOfModel
  | @Arr.v k f => if h : k = n then .ok fun i => f (Fin.cast h.symm i) else .error .outOfModel
  | @Arr.m r c M => if h : 0 < r ∧ r = 1 ∧ c = n then .ok fun i => M ⟨0, h.1⟩ (Fin.cast h.2.2.symm i) else .error .outOfModel

/-- scipy reads the lower triangle of the covariance (`eigh`), which is thereby symmetric. -/
theorem lowerSym_hermitian {n : ℕ} (C : Matrix (Fin n) (Fin n) ℝ) : (lowerSym C).IsHermitian := by
  rw [Matrix.IsHermitian, Matrix.conjTranspose_eq_transpose_of_trivial]
  exact lowerSym_symm C

open Classical in
/-- `-logpdf` of `scipy.stats.multivariate_normal`: with `cut` equal to `10⁶ · 2⁻⁵²` times the largest absolute eigenvalue, an
eigenvalue below `-cut` raises `ValueError`; if all exceed `cut` the formula of the density is used; otherwise the covariance counts
as singular, which is a `LinAlgError` unless `allow_singular`, and with it is not modelled. -/
noncomputable def mvnNegLog (allowSingular : Bool) {n : ℕ} (x μ : Fin n → ℝ) (C : Matrix (Fin n) (Fin n) ℝ) : Py ℝ :=
  let lam := (lowerSym_hermitian C).eigenvalues
  if ∀ i j, 1e6 * 2⁻¹ ^ 52 * |lam j| < lam i then
    .ok ((n * Real.log (2 * Real.pi) + Real.log (lowerSym C).det + (x - μ) ⬝ᵥ ((lowerSym C)⁻¹).mulVec (x - μ)) / 2)
  else if ∃ i, ∀ j, lam i < -(1e6 * 2⁻¹ ^ 52 * |lam j|) then .error .value
  else if allowSingular then .error .outOfModel
  else .error .linAlg

/-- `nll` (`StateModel/Gaussian.py:231-238`). -/
noncomputable def Gaussian.nll (env : Env) (g : Gaussian) (x : Arr) : Py ℝ := do
  let ⟨n, μ⟩ ← mvnMean (← g.meanA env)
  let C ← mvnCov n (← g.covA env)
  mvnNegLog true (← mvnPoint n x) μ C

namespace Metrics

/-- `np.mean` of a list of numbers; `nan` for an empty list. -/
noncomputable def mean (l : List ℝ) : Py ℝ := if l = [] then .error .outOfModel else .ok (l.sum / l.length)

/-- `nll` (`Utils/Metrics.py:4-9`). -/
noncomputable def nll (env : Env) (states : List Gaussian) (truths : List Arr) : Py ℝ := do
  mean (← (states.zip truths).mapM fun p => p.1.nll env p.2)

/-- `rmse` (`Utils/Metrics.py:12-18`). -/
noncomputable def rmse (env : Env) (states : List Gaussian) (truths : List Arr) : Py ℝ := do
  let mse ← mean (← (states.zip truths).mapM fun p => p.1.squaredError env p.2)
  return Real.sqrt mse

/-- `node_metrics` (`Utils/Metrics.py:21-23`): rmse and nll. -/
noncomputable def nodeMetrics (env : Env) (h : Heap) (nodes : List Ref) (xTrue : List Arr) : Py (ℝ × ℝ) := do
  let states := nodes.map fun r => (h.get r).marginal
  let r ← rmse env states xTrue
  let n ← nll env states xTrue
  return (r, n)

/-! ## Bearings-only experiments -/

/-- `m[i]` on a vector; `m[i]` on a matrix is a row, which the code below would nest; not modelled. -/
def vecItem (a : Arr) (i : ℕ) : Py ℝ :=
  match a with
  | .s _ => .error .index
  | @Arr.v n f => if h : i < n then .ok (f ⟨i, h⟩) else .error .index
  | .m _ => .error .outOfModel

/-- `c[i, j]`. -/
def matItem (a : Arr) (i j : ℕ) : Py ℝ :=
  match a with
  | @Arr.m r c M => if h : i < r ∧ j < c then .ok (M ⟨i, h.1⟩ ⟨j, h.2⟩) else .error .index
  | _ => .error .index

/-- `Gaussian(np.array([m[i], m[j]]), np.array([[c[i,i], c[i,j]], [c[j,i], c[j,j]]]))`
(`Experiments/EP_Sweep_BearingsOnly.py:94-97`). -/
noncomputable def pairState (i j : ℕ) (m c : Arr) : Py Gaussian := do
  let mi ← vecItem m i
  let mj ← vecItem m j
  let cii ← matItem c i i
  let cij ← matItem c i j
  let cji ← matItem c j i
  let cjj ← matItem c j j
  return Gaussian.ofMoment (.v ![mi, mj]) (.m !![cii, cij; cji, cjj])

/-- `Gaussian(np.array([m[i]]), np.array([[c[i,i]]]))` (`Experiments/EP_Sweep_BearingsOnly.py:98-99`). -/
noncomputable def singleState (i : ℕ) (m c : Arr) : Py Gaussian := do
  let mi ← vecItem m i
  let cii ← matItem c i i
  return Gaussian.ofMoment (.v ![mi]) (.m !![cii])

/-- The six numbers returned by `node_metrics` in the bearings-only experiments. -/
structure Components where
  posRmse : ℝ
  posNll : ℝ
  velRmse : ℝ
  velNll : ℝ
  angRmse : ℝ
  angNll : ℝ

/-- The common body of `node_metrics` (`Experiments/EP_Sweep_BearingsOnly.py:90-109`) and `componentwise_metrics`
(`Experiments/IEKS_Sweep_BearingsOnly.py:50-68`): they differ in how component `i` of a true state is read (`item`). -/
noncomputable def components (env : Env) (item : Arr → ℕ → Py ℝ) (states : List Gaussian) (xTrue : List Arr) :
    Py Components := do
  let means ← states.mapM fun s => s.meanA env
  let covs ← states.mapM fun s => s.covA env
  let pos ← (means.zip covs).mapM fun p => pairState 0 2 p.1 p.2
  let vel ← (means.zip covs).mapM fun p => pairState 1 3 p.1 p.2
  let ang ← (means.zip covs).mapM fun p => singleState 4 p.1 p.2
  let posTrue ← xTrue.mapM fun x => do return Arr.v ![← item x 0, ← item x 2]
  let velTrue ← xTrue.mapM fun x => do return Arr.v ![← item x 1, ← item x 3]
  let angTrue ← xTrue.mapM fun x => do return Arr.v ![← item x 4]
  let pr ← rmse env pos posTrue
  let pn ← nll env pos posTrue
  let vr ← rmse env vel velTrue
  let vn ← nll env vel velTrue
  let ar ← rmse env ang angTrue
  let an ← nll env ang angTrue
  return ⟨pr, pn, vr, vn, ar, an⟩

/-- `node_metrics` (`Experiments/EP_Sweep_BearingsOnly.py:85-109`): true states are rows, `x[0,i]`. -/
noncomputable def bearingMetrics (env : Env) (h : Heap) (nodes : List Ref) (xTrue : List Arr) : Py Components :=
  components env (fun x i => matItem x 0 i) (nodes.map fun r => (h.get r).marginal) xTrue

/-- `componentwise_metrics` (`Experiments/IEKS_Sweep_BearingsOnly.py:45-68`): true states are vectors, `x[i]`. -/
noncomputable def componentwiseMetrics (env : Env) (states : List Gaussian) (xTrue : List Arr) : Py Components :=
  components env vecItem states xTrue

end Metrics

end Verif
