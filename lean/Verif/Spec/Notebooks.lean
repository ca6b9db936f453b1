import Verif.Spec.Database
import Verif.Model.Notebooks

/-!
# Specification of the curves and pictures made of stored results (C108)
-/

namespace Verif

/-- The file after any number of runs of `Experiments/EP_FullSweep.py` on it, each with its own system, settings, seeds, number of
iterations and flags, each of them possibly killed at any moment.  At first the file holds no results.  `ok` is what is known of the
settings of the sweeps. -/
inductive AfterRuns (dyn exp : String) (ok : Setting → Prop) : Tables → Prop
  | start (file : Tables) (hd : file dyn = none ∨ ∃ d, file dyn = some (dynTable d)) (he : file exp = none ∨ file exp = some (expTable [])) :
      AfterRuns dyn exp ok file
  | run {file f : Tables} (h : AfterRuns dyn exp ok file) (env : Env) (jac : Jac) (draws : Draws) (cfg : Config)
      (hd : cfg.dynTable = dyn) (he : cfg.expTable = exp) (seeds : List ℤ) (transTypes : List String) (powers dampings : List ℝ)
      (override : Bool) (hok : ∀ s ∈ settings transTypes powers dampings, ok s)
      (hf : f ∈ (sweepMain env jac draws cfg seeds transTypes powers dampings override (Conn.connect file)).2.history ∨
        f = (sweepMain env jac draws cfg seeds transTypes powers dampings override (Conn.connect file)).2.saved) :
      AfterRuns dyn exp ok f

/-- The scores stored for a setting and a seed, in order of the iterations: the table holds exactly one row for each of the iterations
`1, …, scores.length`, with these scores, and no other row of the setting. -/
def StoredScores (rows : List Row) (tr : String) (seed : ℤ) (power damping : ℝ) (scores : List (ℝ × ℝ)) : Prop :=
  (∀ (k : ℕ) (s : ℝ × ℝ), scores[k]? = some s → expRow tr seed power damping (k + 1) s.1 s.2 ∈ rows) ∧
    ∀ it a b, expRow tr seed power damping it a b ∈ rows → ∃ k : ℕ, scores[k]? = some (a, b) ∧ it = k + 1

end Verif
