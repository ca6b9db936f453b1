import Verif.Model.Gaussian

/-!
# Printing a state (`StateModel/Gaussian.py:255-265`)
-/

namespace Verif.Gaussian

/-- The two values that `__repr__` and `__str__` put into their text (`StateModel/Gaussian.py:255-265`): shift and precision in natural
mode, mean and covariance otherwise; with the object afterwards, as the attributes are read through their getters.  The formatting of
the numbers is not modelled. -/
noncomputable def shown (env : Env) (g : Gaussian) : Py (Option Arr × Option Arr) × Gaussian :=
  if g.mode = .natural then
    match getShift env g with
    | (.error e, g') => (.error e, g')
    | (.ok h, g') => match getPrecision env g' with
      | (.error e, g'') => (.error e, g'')
      | (.ok p, g'') => (.ok (h, p), g'')
  else
    match getMean env g with
    | (.error e, g') => (.error e, g')
    | (.ok mn, g') => match getCov env g' with
      | (.error e, g'') => (.error e, g'')
      | (.ok cv, g'') => (.ok (mn, cv), g'')

end Verif.Gaussian
