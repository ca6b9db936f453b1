import Verif.Model.Metrics

/-!
# The likelihood methods of `TaylorTransform` (`MomentMatching/TaylorLinearisation.py:61-75`)
-/

namespace Verif

/-- `TaylorTransform._data_likelihood` (`MomentMatching/TaylorLinearisation.py:61-67`) with `autograd.jacobian` as the argument `jac`;
`multivariate_normal` is autograd's wrapper of the scipy one, called without `allow_singular`.  Jacobians of rank three (functions
returning rows) are not modelled. -/
noncomputable def taylorDataLikelihood (env : Env) (jac : Jac) (func : Func) (g : Gaussian) (data : Arr) : Py ℝ := do
  let mean ← g.meanA env
  let meanz ← func mean
  let J ← (← jac func mean).toArr
  let covz ← (← J.matmul (← g.covA env)).matmul J.T
  let ⟨k, μ⟩ ← mvnMean meanz
  let C ← mvnCov k covz
  return -(← mvnNegLog false (← mvnPoint k data) μ C)

/-- `TaylorTransform.project` (`MomentMatching/TaylorLinearisation.py:69-75`): `jacobian(self._data_likelihood, argnum=1)` asks autograd to
differentiate with respect to a `Gaussian` object, which it rejects with a `TypeError`. -/
noncomputable def taylorProject (env : Env) (jac : Jac) (func : Func) (g : Gaussian) (data : Arr) : Py (ℝ × Arr × Arr) := do
  let _ ← taylorDataLikelihood env jac func g data
  .error .type

end Verif
