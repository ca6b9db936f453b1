import Verif.Props.Graph

/-! Building, equipping and wiring a graph, as the experiments do. -/

namespace Verif

open Gaussian Node

variable {env : Env}

/-- Node `i` of the graph for `N` nodes starting at reference `s`. -/
noncomputable def builtNode (env : Env) (e : Estimator) (sys : Sys) (s N dim i : ℕ) (y : Arr) : Node where
  index := i
  dim := dim
  prev := if i = 0 then none else some (s + (i - 1))
  next := if i + 1 < N then some (s + (i + 1)) else none
  marginal := asMarginal dim
  measFactor := asFactor dim
  backFactor := asFactor dim
  fwdFactor := asFactor dim
  power := some e.power
  damping := some e.damping
  transFunc := fun x => sys.transition x (some (i * sys.dt)) (some 0)
  measFunc := fun x => sys.measurement x none none
  meas := some y.squeeze
  prior := if i = 0 then some sys.initState else none
  fwdUpdate := some (s + i, e.projTrans)
  measUpdate := some (s + i, e.projMeas env)
  backUpdate := some (s + i, e.projBack env)

/-- What the experiments do (`Experiments/EP_FullSweep.py:76-78`): build `N` nodes, equip them with the estimator and wire the system
and the measurements. -/
noncomputable def graph (env : Env) (N dim : ℕ) (e : Estimator) (sys : Sys) (ys : List Arr) : PyM Heap (List Ref) := do
  let nodes ← buildNodes env N dim none none
  let nodes ← nodeEstimator env nodes e
  nodeSystem nodes sys ys none

theorem graph_run (N dim : ℕ) (hN : 2 ≤ N) (e : Estimator) (sys : Sys) (ys : List Arr) (hys : ys ≠ []) (h : Heap) :
    ∃ h', graph env N dim e sys ys h = (.ok ((List.range' h.size N).take ys.length), h') ∧ h'.size = h.size + N ∧
      (∀ q, q < h.size → h'.get q = h.get q) ∧
      ∀ (i : ℕ) (y : Arr), i < N → ys[i]? = some y → h'.get (h.size + i) = builtNode env e sys h.size N dim i y := by
  obtain ⟨h1, a1, a2, a3, a4⟩ := allocNodes_run dim N 0 h
  obtain ⟨h2, b1, b2, b3, b4⟩ := linkLoop_run (s := h.size) hN N 0 h1 (by omega)
  rw [Nat.add_zero] at b1
  obtain ⟨h3, c1, c2, c3, c4⟩ := nodeEstimator_run (env := env) e (List.range' h.size N) h2
  obtain ⟨h4, d1, d2, d3, d4⟩ := C32_wiring (List.range' h.size N) sys ys h3 List.nodup_range'
    (by intro h0; have := congrArg List.length h0; simp at this; omega) hys
  have hb : buildNodes env N dim none none h = (.ok (List.range' h.size N), h2) := by
    unfold buildNodes
    rw [PyM.bind_ok a1, PyM.bind_ok b1]
    rfl
  refine ⟨h4, ?_, by rw [d2, c2, b2, a2], ?_, ?_⟩
  · exact (PyM.bind_ok hb _).trans ((PyM.bind_ok c1 _).trans d1)
  · intro q hq
    have hq' : q ∉ List.range' h.size N := by simp only [List.mem_range'_1]; omega
    rw [d3 q fun hm => hq' (List.mem_of_mem_take hm), c3 q hq', b3 q (by omega), a3 q hq]
  · intro i y hi hy
    rw [d4 i (h.size + i) y (by simp [hi]) hy, c4 _ (by simp only [List.mem_range'_1]; omega), b4 i (Nat.zero_le _) hi, a4 i hi]
    rw [Nat.zero_add]
    simp only [builtNode, equipped, chained, Node.init, rebind]

end Verif
