import Verif.Spec.Nodes
import Verif.Lemmas.Nodes
import Verif.Lemmas.Scalar

/-!
# Building and equipping the factor graph (C31, C32, C33)
-/

namespace Verif

open Matrix Gaussian Node

variable {env : Env}

/-! ## C31 -/

theorem ref_ne {a b : ℕ} (h : a ≠ b) : (a : Ref) ≠ b := h

theorem allocNodes_run (dim : ℕ) : ∀ (n i : ℕ) (h : Heap), ∃ h', allocNodes dim n i h = (.ok (List.range' h.size n), h') ∧
    h'.size = h.size + n ∧ (∀ q, q < h.size → h'.get q = h.get q) ∧
    ∀ k, k < n → h'.get (h.size + k) = Node.init dim (i + k)
  | 0, _, h => ⟨h, rfl, rfl, fun _ _ => rfl, fun _ hk => absurd hk (Nat.not_lt_zero _)⟩
  | n + 1, i, h => by
    obtain ⟨h', h1, h2, h3, h4⟩ := allocNodes_run dim n (i + 1) (h.alloc (Node.init dim i))
    refine ⟨h', ?_, ?_, ?_, ?_⟩
    · unfold allocNodes
      rw [PyM.get_bind, PyM.modify_bind, PyM.bind_ok h1]
      simp [List.range'_succ]
    · rw [h2, Heap.alloc_size]; omega
    · intro q hq
      rw [h3 q (by rw [Heap.alloc_size]; omega), Heap.alloc_get_old _ _ (Nat.ne_of_lt hq)]
    · intro k hk
      cases k with
      | zero => rw [Nat.add_zero, Nat.add_zero, h3 h.size (by rw [Heap.alloc_size]; omega), Heap.alloc_get_new]
      | succ k =>
        have := h4 k (by omega)
        rw [Heap.alloc_size] at this
        rw [show h.size + (k + 1) = h.size + 1 + k by omega, this, show i + (k + 1) = i + 1 + k by omega]

theorem getItem_range' {s N k : ℕ} (hk : k < N) : IEKS.getItem (List.range' s N) k = .ok (s + k) := by
  simp [IEKS.getItem, hk]

/-- The links node `i` of a chain of `N` nodes starting at reference `s` should have. -/
def chained (s N i : ℕ) (n : Node) : Node :=
  { n with prev := if i = 0 then none else some (s + (i - 1)), next := if i + 1 < N then some (s + (i + 1)) else none }

theorem linkNode_run {s N i : ℕ} (hN : 2 ≤ N) (hi : i < N) (h : Heap) :
    linkNode N (List.range' s N) i (s + i) h = (.ok (), h.update (s + i) (chained s N i)) := by
  unfold linkNode
  split_ifs with h0 h1
  · subst h0
    rw [PyM.modify_bind, PyM.lift_bind_eq (getItem_range' (by omega))]
    simp only [PyM.modify_run, Heap.update_update]
    congr 2
    funext n
    simp only [chained, Function.comp_apply, if_true, if_pos (show 0 + 1 < N by omega)]
  · subst h1
    rw [PyM.lift_bind_eq (getItem_range' (by omega)), PyM.modify_bind]
    simp only [PyM.modify_run, Heap.update_update]
    congr 2
    funext n
    simp only [chained, Function.comp_apply, if_neg h0, if_neg (show ¬ (N - 1 + 1 < N) by omega)]
  · rw [PyM.lift_bind_eq (getItem_range' (by omega)), PyM.modify_bind, PyM.lift_bind_eq (getItem_range' (by omega))]
    simp only [PyM.modify_run, Heap.update_update]
    congr 2
    funext n
    simp only [chained, Function.comp_apply, if_neg h0, if_pos (show i + 1 < N by omega)]

theorem linkLoop_run {s N : ℕ} (hN : 2 ≤ N) : ∀ (k m : ℕ) (h : Heap), m + k = N →
    ∃ h', PyM.forEach ((List.range' (s + m) k).zipIdx m) (fun (r, i) => linkNode N (List.range' s N) i r) h = (.ok (), h') ∧
      h'.size = h.size ∧ (∀ q, (q < s + m ∨ s + N ≤ q) → h'.get q = h.get q) ∧
      ∀ i, m ≤ i → i < N → h'.get (s + i) = chained s N i (h.get (s + i))
  | 0, m, h, hm => ⟨h, rfl, rfl, fun _ _ => rfl, fun i h1 h2 => by omega⟩
  | k + 1, m, h, hm => by
    obtain ⟨h', h1, h2, h3, h4⟩ := linkLoop_run hN k (m + 1) (h.update (s + m) (chained s N m)) (by omega)
    refine ⟨h', ?_, by simpa using h2, ?_, ?_⟩
    · rw [List.range'_succ, List.zipIdx_cons]
      unfold PyM.forEach
      rw [PyM.bind_ok (linkNode_run hN (by omega) h)]
      exact h1
    · intro q hq
      rw [h3 q (by omega), Heap.update_get_ne _ (ref_ne (by omega))]
    · intro i hi hiN
      by_cases him : i = m
      · subst him
        rw [h3 _ (by omega), Heap.update_get_same]
      · rw [h4 i (by omega) hiN, Heap.update_get_ne _ (ref_ne (by omega))]

/-- **C31.** `build_nodes(N, dim)` for `N ≥ 2` returns `N` new nodes forming a chain, and touches no existing object. -/
theorem C31_chain (N dim : ℕ) (hN : 2 ≤ N) (h : Heap) :
    ∃ h', buildNodes env N dim none none h = (.ok (List.range' h.size N), h') ∧ h'.size = h.size + N ∧
      (∀ q, q < h.size → h'.get q = h.get q) ∧
      ∀ i, i < N →
        let nd := h'.get (h.size + i)
        nd.index = i ∧ nd.dim = dim ∧
        nd.prev = (if i = 0 then none else some (h.size + (i - 1))) ∧
        nd.next = (if i + 1 < N then some (h.size + (i + 1)) else none) ∧
        HasMoments env nd.marginal (0 : Fin dim → ℝ) ((10 : ℝ) ^ 10 • (1 : Matrix (Fin dim) (Fin dim) ℝ)) ∧
        HasNatural env nd.fwdFactor (0 : Matrix (Fin dim) (Fin dim) ℝ) 0 ∧
        HasNatural env nd.measFactor (0 : Matrix (Fin dim) (Fin dim) ℝ) 0 ∧
        HasNatural env nd.backFactor (0 : Matrix (Fin dim) (Fin dim) ℝ) 0 ∧
        nd.power = none ∧ nd.damping = none ∧ nd.meas = none ∧ nd.prior = none ∧
        nd.fwdUpdate = none ∧ nd.measUpdate = none ∧ nd.backUpdate = none := by
  obtain ⟨h1, a1, a2, a3, a4⟩ := allocNodes_run dim N 0 h
  obtain ⟨h2, b1, b2, b3, b4⟩ := linkLoop_run (s := h.size) hN N 0 h1 (by omega)
  rw [Nat.add_zero] at b1
  refine ⟨h2, ?_, by rw [b2, a2], ?_, ?_⟩
  · unfold buildNodes
    rw [PyM.bind_ok a1, PyM.bind_ok b1]
    rfl
  · intro q hq
    rw [b3 q (by omega), a3 q hq]
  · intro i hi
    have e := b4 i (Nat.zero_le _) hi
    rw [a4 i hi, Nat.zero_add] at e
    dsimp only
    rw [e]
    refine ⟨rfl, rfl, rfl, rfl, ?_, hasNatural_ofNatural _ _ _, hasNatural_ofNatural _ _ _, hasNatural_ofNatural _ _ _,
      rfl, rfl, rfl, rfl, rfl, rfl, rfl⟩
    exact hasMoments_ofMoment _ _ _

/-- **C31.** No nodes: the empty list. -/
theorem C31_zero (dim : ℕ) (h : Heap) : buildNodes env 0 dim none none h = (.ok [], h) := rfl

/-- **C31.** One node: `IndexError`, for every dimension, estimator and system. -/
theorem C31_one (dim : ℕ) (e : Option Estimator) (s : Option Sys) (h : Heap) :
    (buildNodes env 1 dim e s h).1 = .error .index := by
  obtain ⟨h1, a1, -⟩ := allocNodes_run dim 1 0 h
  unfold buildNodes
  rw [PyM.bind_ok a1]
  rfl

example : ∃ h', buildNodes calmEnv 3 2 none none ⟨fun _ => Node.init 1 0, 5⟩ = (.ok [5, 6, 7], h') ∧
    (h'.get 6).next = some 7 ∧ (h'.get 6).prev = some 5 := by
  obtain ⟨h', h1, -, -, h2⟩ := C31_chain (env := calmEnv) 3 2 (by norm_num) ⟨fun _ => Node.init 1 0, 5⟩
  exact ⟨h', h1, (h2 1 (by norm_num)).2.2.2.1, (h2 1 (by norm_num)).2.2.1⟩

/-! ## C32 -/

/-- What `node_system` sets on a node. -/
def wired (sys : Sys) (y : Arr) (tu : Option ℝ × Option ℝ) (n : Node) : Node :=
  { n with transFunc := fun x => sys.transition x tu.1 tu.2, measFunc := fun x => sys.measurement x none none,
           meas := some y.squeeze }

theorem nodeSystemLoop_run (sys : Sys) : ∀ (nodes : List Ref) (ys : List Arr) (fs : List (Option ℝ × Option ℝ)) (h : Heap),
    nodes.Nodup → ∃ h', nodeSystemLoop sys nodes ys fs h =
        (.ok (nodes.take (min ys.length fs.length)), h') ∧ h'.size = h.size ∧
      (∀ q, q ∉ nodes.take (min ys.length fs.length) → h'.get q = h.get q) ∧
      ∀ (i : ℕ) r y tu, nodes[i]? = some r → ys[i]? = some y → fs[i]? = some tu → h'.get r = wired sys y tu (h.get r)
  | r :: rs, y :: ys, (t, u) :: fs, h, hn => by
    have hn' := List.nodup_cons.1 hn
    obtain ⟨h', h1, h2, h3, h4⟩ := nodeSystemLoop_run sys rs ys fs (h.update r (wired sys y (t, u))) hn'.2
    refine ⟨h', ?_, h2, ?_, ?_⟩
    · unfold nodeSystemLoop
      simp only [PyM.modify_bind, Heap.update_update]
      refine (PyM.bind_ok h1 _).trans ?_
      simp [Nat.add_min_add_right]
    · intro q hq
      simp only [List.length_cons, Nat.add_min_add_right, List.take_succ_cons, List.mem_cons, not_or] at hq
      rw [h3 q hq.2, Heap.update_get_ne _ hq.1]
    · intro i r' y' tu' hr hy hf
      cases i with
      | zero =>
        simp only [List.getElem?_cons_zero, Option.some.injEq] at hr hy hf
        subst hr hy hf
        rw [h3 _ (fun hm => hn'.1 (List.mem_of_mem_take hm)), Heap.update_get_same]
      | succ i =>
        simp only [List.getElem?_cons_succ] at hr hy hf
        rw [h4 i r' y' tu' hr hy hf, Heap.update_get_ne]
        rintro rfl
        exact hn'.1 (List.mem_of_getElem? hr)
  | [], ys, fs, h, _ => ⟨h, by simp [nodeSystemLoop], rfl, fun _ _ => rfl, fun i r y tu hr => by simp at hr⟩
  | r :: rs, [], fs, h, _ => ⟨h, by simp [nodeSystemLoop], rfl, fun _ _ => rfl, fun i r y tu _ hy => by simp at hy⟩
  | r :: rs, y :: ys, [], h, _ => ⟨h, by simp [nodeSystemLoop], rfl, fun _ _ => rfl, fun i r y tu _ _ hf => by simp at hf⟩

theorem defaultFargs_get (dt : ℝ) : ∀ (n : ℕ) (t : ℝ) (i : ℕ), i < n →
    (defaultFargs dt n t)[i]? = some (some (t + i * dt), some 0)
  | n + 1, t, 0, _ => by simp [defaultFargs]
  | n + 1, t, i + 1, h => by
    simp only [defaultFargs, List.getElem?_cons_succ]
    rw [defaultFargs_get dt n (t + dt) i (by omega)]
    push_cast
    congr 3
    ring

theorem defaultFargs_length (dt : ℝ) : ∀ (n : ℕ) (t : ℝ), (defaultFargs dt n t).length = n
  | 0, _ => rfl
  | n + 1, t => by simp [defaultFargs, defaultFargs_length dt n]

/-- **C32.** `node_system(nodes, system, measurements)` on distinct nodes with at least one measurement returns the first
`min(N, M)` nodes; node `i` gets the transition at time `i·dt` with control `0.0`, the measurement function without time and control,
and the squeezed measurement `i`; the first node also gets the prior; no other attribute and no other object changes. -/
theorem C32_wiring (nodes : List Ref) (sys : Sys) (ys : List Arr) (h : Heap) (hn : nodes.Nodup) (hne : nodes ≠ []) (hys : ys ≠ []) :
    ∃ h', nodeSystem nodes sys ys none h = (.ok (nodes.take ys.length), h') ∧ h'.size = h.size ∧
      (∀ q, q ∉ nodes.take ys.length → h'.get q = h.get q) ∧
      ∀ (i : ℕ) r y, nodes[i]? = some r → ys[i]? = some y →
        h'.get r = { h.get r with
          transFunc := fun x => sys.transition x (some (i * sys.dt)) (some 0)
          measFunc := fun x => sys.measurement x none none
          meas := some y.squeeze
          prior := if i = 0 then some sys.initState else (h.get r).prior } := by
  obtain ⟨h1, a1, a2, a3, a4⟩ := nodeSystemLoop_run sys nodes ys (defaultFargs sys.dt ys.length 0) h hn
  rw [defaultFargs_length, Nat.min_self] at a1 a3
  cases nodes with
  | nil => exact absurd rfl hne
  | cons r0 rs =>
    cases ys with
    | nil => exact absurd rfl hys
    | cons y0 ys =>
      refine ⟨h1.update r0 fun n => { n with prior := some sys.initState }, ?_, a2, ?_, ?_⟩
      · unfold nodeSystem
        simp only [Option.getD_none]
        rw [PyM.bind_ok a1]
        simp
      · intro q hq
        rw [Heap.update_get_ne, a3 q hq]
        rintro rfl
        exact hq (by simp)
      · intro i r y hr hy
        have hi : i < (y0 :: ys).length := (List.getElem?_eq_some_iff.1 hy).1
        have e := a4 i r y _ hr hy (defaultFargs_get sys.dt _ 0 i hi)
        rw [zero_add] at e
        cases i with
        | zero =>
          simp only [List.getElem?_cons_zero, Option.some.injEq] at hr
          subst hr
          rw [Heap.update_get_same, e]
          simp [wired]
        | succ i =>
          rw [Heap.update_get_ne, e]
          · simp [wired]
          · rintro rfl
            simp only [List.getElem?_cons_succ] at hr
            exact (List.nodup_cons.1 hn).1 (List.mem_of_getElem? hr)

/-- **C32.** With an explicit `farg_list` the list is also cut to its length, and node `i` gets the arguments of entry `i`. -/
theorem C32_wiring_fargs (nodes : List Ref) (sys : Sys) (ys : List Arr) (fs : List (Option ℝ × Option ℝ)) (h : Heap)
    (hn : nodes.Nodup) (hne : nodes ≠ []) (hys : ys ≠ []) (hfs : fs ≠ []) :
    ∃ h', nodeSystem nodes sys ys (some fs) h = (.ok (nodes.take (min ys.length fs.length)), h') ∧ h'.size = h.size ∧
      (∀ q, q ∉ nodes.take (min ys.length fs.length) → h'.get q = h.get q) ∧
      ∀ (i : ℕ) r y t u, nodes[i]? = some r → ys[i]? = some y → fs[i]? = some (t, u) →
        h'.get r = { h.get r with
          transFunc := fun x => sys.transition x t u
          measFunc := fun x => sys.measurement x none none
          meas := some y.squeeze
          prior := if i = 0 then some sys.initState else (h.get r).prior } := by
  obtain ⟨h1, a1, a2, a3, a4⟩ := nodeSystemLoop_run sys nodes ys fs h hn
  cases nodes with
  | nil => exact absurd rfl hne
  | cons r0 rs =>
    cases ys with
    | nil => exact absurd rfl hys
    | cons y0 ys =>
      cases fs with
      | nil => exact absurd rfl hfs
      | cons f0 fs =>
        refine ⟨h1.update r0 fun n => { n with prior := some sys.initState }, ?_, a2, ?_, ?_⟩
        · unfold nodeSystem
          simp only [Option.getD_some]
          rw [PyM.bind_ok a1]
          simp [Nat.add_min_add_right]
        · intro q hq
          rw [Heap.update_get_ne, a3 q hq]
          rintro rfl
          exact hq (by simp [Nat.add_min_add_right])
        · intro i r y t u hr hy hf
          have e := a4 i r y _ hr hy hf
          cases i with
          | zero =>
            simp only [List.getElem?_cons_zero, Option.some.injEq] at hr
            subst hr
            rw [Heap.update_get_same, e]
            simp [wired]
          | succ i =>
            rw [Heap.update_get_ne, e]
            · simp [wired]
            · rintro rfl
              simp only [List.getElem?_cons_succ] at hr
              exact (List.nodup_cons.1 hn).1 (List.mem_of_getElem? hr)

/-- **C32.** Without nodes, measurements or arguments: `IndexError`, and nothing has changed. -/
theorem C32_empty (nodes : List Ref) (sys : Sys) (ys : List Arr) (fs : Option (List (Option ℝ × Option ℝ))) (h : Heap)
    (he : nodes = [] ∨ ys = [] ∨ fs = some []) : nodeSystem nodes sys ys fs h = (.error .index, h) := by
  have : nodeSystemLoop sys nodes ys (fs.getD (defaultFargs sys.dt ys.length 0)) h = (.ok [], h) := by
    rcases he with rfl | rfl | rfl
    · unfold nodeSystemLoop; rfl
    · cases nodes <;> simp [nodeSystemLoop]
    · cases nodes <;> cases ys <;> simp [nodeSystemLoop]
  unfold nodeSystem
  rw [PyM.bind_ok this]
  rfl

/-- A small system for the examples: `x ↦ x + t`, `y = x`. -/
noncomputable def demoSys : Sys :=
  { transition := fun x t _ => x.add (.s (t.getD 0)), measurement := fun x _ _ => .ok x, Q := .s 1, R := .s 1,
    initState := Gaussian.ofMoment (.v (n := 1) ![0]) (.m (r := 1) (c := 1) 1), dt := 1 / 2 }

-- three nodes, two measurements: the third node is dropped; node 1 has its transition at time 1/2
example : ∃ h', nodeSystem [5, 6, 7] demoSys [.s 3, .s 4] none ⟨fun _ => Node.init 1 0, 8⟩ = (.ok [5, 6], h') ∧
    (h'.get 6).meas = some (.s 4) ∧ (h'.get 6).transFunc (.s 1) = .ok (.s (1 + 1 / 2)) ∧
    (h'.get 7).meas = none := by
  obtain ⟨h', h1, -, h3, h4⟩ := C32_wiring [5, 6, 7] demoSys [.s 3, .s 4] ⟨fun _ => Node.init 1 0, 8⟩ (by decide) (by simp) (by simp)
  refine ⟨h', h1, ?_, ?_, ?_⟩
  · rw [h4 1 6 (.s 4) rfl rfl]; rfl
  · rw [h4 1 6 (.s 4) rfl rfl]
    simp [demoSys, Arr.add, Arr.zip]
  · rw [h3 7 (by decide)]; rfl

/-! ## C33 -/

/-- What `node_estimator` sets on a node. -/
noncomputable def equipped (env : Env) (e : Estimator) (r : Ref) (n : Node) : Node :=
  { n with fwdUpdate := rebind r n.fwdUpdate e.projTrans, measUpdate := rebind r n.measUpdate (e.projMeas env),
           backUpdate := rebind r n.backUpdate (e.projBack env), power := some e.power, damping := some e.damping }

theorem rebind_rebind {α : Type} (r : Ref) (o : Option (Ref × α)) (p q : α) : rebind r (rebind r o p) q = rebind r o q := by
  cases o <;> rfl

theorem equipped_equipped (e e' : Estimator) (r : Ref) (n : Node) :
    equipped env e' r (equipped env e r n) = equipped env e' r n := by
  simp only [equipped, rebind_rebind]

theorem nodeEstimator_run (e : Estimator) (nodes : List Ref) (h : Heap) :
    ∃ h', nodeEstimator env nodes e h = (.ok nodes, h') ∧ h'.size = h.size ∧
      (∀ q, q ∉ nodes → h'.get q = h.get q) ∧ ∀ q, q ∈ nodes → h'.get q = equipped env e q (h.get q) := by
  suffices ∀ (l : List Ref) (h : Heap), ∃ h', (PyM.forEach l fun r => do
      PyM.modify fun h => h.update r fun n => { n with fwdUpdate := Node.rebind r n.fwdUpdate e.projTrans }
      PyM.modify fun h => h.update r fun n => { n with measUpdate := Node.rebind r n.measUpdate (e.projMeas env) }
      PyM.modify fun h => h.update r fun n => { n with backUpdate := Node.rebind r n.backUpdate (e.projBack env) }
      PyM.modify fun h => h.update r fun n => { n with power := some e.power }
      PyM.modify fun h => h.update r fun n => { n with damping := some e.damping } : PyM Heap Unit) h = (.ok (), h') ∧
      h'.size = h.size ∧ (∀ q, q ∉ l → h'.get q = h.get q) ∧ ∀ q, q ∈ l → h'.get q = equipped env e q (h.get q) by
    obtain ⟨h', h1, h2⟩ := this nodes h
    refine ⟨h', ?_, h2⟩
    unfold nodeEstimator
    rw [PyM.bind_ok h1]
    rfl
  intro l
  induction l with
  | nil => exact fun h => ⟨h, rfl, rfl, fun _ _ => rfl, fun q hq => by simp at hq⟩
  | cons r l ih =>
    intro h
    obtain ⟨h', h1, h2, h3, h4⟩ := ih (h.update r (equipped env e r))
    refine ⟨h', ?_, h2, ?_, ?_⟩
    · unfold PyM.forEach
      refine (PyM.bind_ok (a := ()) (s' := h.update r (equipped env e r)) ?_ _).trans h1
      simp only [PyM.modify_bind, PyM.modify_run, Heap.update_update]
      rfl
    · intro q hq
      simp only [List.mem_cons, not_or] at hq
      rw [h3 q hq.2, Heap.update_get_ne _ hq.1]
    · intro q hq
      by_cases hql : q ∈ l
      · rw [h4 q hql]
        by_cases hqr : q = r
        · subst hqr; rw [Heap.update_get_same, equipped_equipped]
        · rw [Heap.update_get_ne _ hqr]
      · have hqr : q = r := by simpa [hql] using hq
        subst hqr
        rw [h3 q hql, Heap.update_get_same]

/-- **C31.** Passing a system always fails: with `TypeError` if the chain could be built. -/
theorem C31_system (N dim : ℕ) (e : Option Estimator) (s : Sys) (h : Heap) (hN : N ≠ 1) :
    (buildNodes env N dim e (some s) h).1 = .error .type := by
  have h2 : N = 0 ∨ 2 ≤ N := by omega
  obtain ⟨h1, a1, -⟩ := allocNodes_run dim N 0 h
  have hlink : ∃ h2, PyM.forEach (List.range' h.size N).zipIdx (fun x : Ref × ℕ => linkNode N (List.range' h.size N) x.2 x.1) h1 =
      (.ok (), h2) := by
    rcases h2 with rfl | h2
    · exact ⟨h1, rfl⟩
    · obtain ⟨h2', b1, -⟩ := linkLoop_run (s := h.size) h2 N 0 h1 (by omega)
      rw [Nat.add_zero] at b1
      exact ⟨h2', b1⟩
  obtain ⟨h2', b1⟩ := hlink
  unfold buildNodes
  rw [PyM.bind_ok a1]
  refine (congrArg Prod.fst (PyM.bind_ok b1 _)).trans ?_
  cases e with
  | none => rfl
  | some e =>
    obtain ⟨h3, c1, -⟩ := nodeEstimator_run (env := env) e (List.range' h.size N) h2'
    exact congrArg Prod.fst (PyM.bind_ok c1 _)

/-- **C31.** Passing an estimator links the same chain and equips it (C33). -/
theorem C31_estimator (N dim : ℕ) (hN : 2 ≤ N) (e : Estimator) (h : Heap) :
    ∃ h1, buildNodes env N dim none none h = (.ok (List.range' h.size N), h1) ∧
      buildNodes env N dim (some e) none h = nodeEstimator env (List.range' h.size N) e h1 := by
  obtain ⟨h1, a1, -⟩ := allocNodes_run dim N 0 h
  obtain ⟨h2, b1, -⟩ := linkLoop_run (s := h.size) hN N 0 h1 (by omega)
  rw [Nat.add_zero] at b1
  refine ⟨h2, ?_, ?_⟩
  · unfold buildNodes
    rw [PyM.bind_ok a1, PyM.bind_ok b1]
    rfl
  · obtain ⟨h3, c1, -⟩ := nodeEstimator_run (env := env) e (List.range' h.size N) h2
    unfold buildNodes
    rw [PyM.bind_ok a1]
    refine (PyM.bind_ok b1 _).trans ?_
    refine (PyM.bind_ok c1 _).trans ?_
    rw [c1]
    rfl

/-- Equips the nodes with several estimators, one after the other. -/
noncomputable def equipAll (env : Env) (nodes : List Ref) : List Estimator → PyM Heap (List Ref)
  | [] => pure nodes
  | e :: es => do let _ ← nodeEstimator env nodes e; equipAll env nodes es

/-- **C33.** Equipping nodes with a sequence of estimators has exactly the effect of equipping them with the last one. -/
theorem C33_last_estimator_wins (nodes : List Ref) (es : List Estimator) (e : Estimator) (h : Heap) :
    equipAll env nodes (es ++ [e]) h = nodeEstimator env nodes e h := by
  induction es generalizing h with
  | nil =>
    obtain ⟨h', h1, -⟩ := nodeEstimator_run (env := env) e nodes h
    simp only [List.nil_append, equipAll]
    rw [PyM.bind_ok h1, h1]; rfl
  | cons e' es ih =>
    obtain ⟨h1, a1, a2, a3, a4⟩ := nodeEstimator_run (env := env) e' nodes h
    obtain ⟨h2, b1, b2, b3, b4⟩ := nodeEstimator_run (env := env) e nodes h1
    obtain ⟨h3, c1, c2, c3, c4⟩ := nodeEstimator_run (env := env) e nodes h
    simp only [List.cons_append, equipAll]
    rw [PyM.bind_ok a1, ih h1, b1, c1]
    congr 1
    refine Heap.ext' (fun q => ?_) (by rw [b2, a2, c2])
    by_cases hq : q ∈ nodes
    · rw [b4 q hq, a4 q hq, c4 q hq, equipped_equipped]
    · rw [b3 q hq, a3 q hq, c3 q hq]

/-- **C33.** After `node_estimator` every node of the list that was not equipped before (or only equipped itself, not copied from an
equipped node) runs its own methods with the projections, power and damping of the given estimator; all other attributes of all
objects are unchanged. -/
theorem C33_equipped (nodes : List Ref) (e : Estimator) (h : Heap) :
    ∃ h', nodeEstimator env nodes e h = (.ok nodes, h') ∧ h'.size = h.size ∧ (∀ q, q ∉ nodes → h'.get q = h.get q) ∧
      ∀ r ∈ nodes,
        (h'.get r).power = some e.power ∧ (h'.get r).damping = some e.damping ∧
        (h'.get r = { h.get r with power := (h'.get r).power, damping := (h'.get r).damping, fwdUpdate := (h'.get r).fwdUpdate,
                                   measUpdate := (h'.get r).measUpdate, backUpdate := (h'.get r).backUpdate }) ∧
        ((∀ t p, (h.get r).fwdUpdate = some (t, p) → t = r) → fwdCall env r h' = fwdUpdateBody env r e.projTrans h') ∧
        ((∀ t p, (h.get r).measUpdate = some (t, p) → t = r) → measCall env r h' = measUpdateBody env r (e.projMeas env) h') ∧
        ((∀ t p, (h.get r).backUpdate = some (t, p) → t = r) → backCall env r h' = backUpdateBody env r (e.projBack env) h') := by
  obtain ⟨h', h1, h2, h3, h4⟩ := nodeEstimator_run (env := env) e nodes h
  refine ⟨h', h1, h2, h3, fun r hr => ?_⟩
  have e1 := h4 r hr
  have hb : ∀ {α : Type} (o : Option (Ref × α)) (p : α), (∀ t p', o = some (t, p') → t = r) → rebind r o p = some (r, p) := by
    intro α o p ho
    cases o with
    | none => rfl
    | some x => obtain ⟨t, p'⟩ := x; simp [rebind, ho t p' rfl]
  refine ⟨by rw [e1]; rfl, by rw [e1]; rfl, by rw [e1]; rfl, fun ht => ?_, fun ht => ?_, fun ht => ?_⟩
  · simp only [fwdCall, PyM.get_bind]
    rw [show (h'.get r).fwdUpdate = some (r, e.projTrans) by rw [e1]; exact hb _ _ ht]
  · simp only [measCall, PyM.get_bind]
    rw [show (h'.get r).measUpdate = some (r, e.projMeas env) by rw [e1]; exact hb _ _ ht]
  · simp only [backCall, PyM.get_bind]
    rw [show (h'.get r).backUpdate = some (r, e.projBack env) by rw [e1]; exact hb _ _ ht]

-- two estimators one after the other: the second one's power counts
example (T : Transform) : ∃ h', equipAll calmEnv [5, 6] [⟨T, T, some (.s 1), none, 1, 1⟩, ⟨T, T, some (.s 1), none, 1 / 2, 3 / 4⟩]
      ⟨fun _ => Node.init 1 0, 8⟩ = (.ok [5, 6], h') ∧
    (h'.get 6).power = some (1 / 2) ∧ (h'.get 6).damping = some (3 / 4) ∧ (h'.get 7).power = none := by
  obtain ⟨h', h1, -, h3, h4⟩ := C33_equipped (env := calmEnv) [5, 6] ⟨T, T, some (.s 1), none, 1 / 2, 3 / 4⟩ ⟨fun _ => Node.init 1 0, 8⟩
  refine ⟨h', ?_, (h4 6 (by simp)).1, (h4 6 (by simp)).2.1, by rw [h3 7 (by decide)]; rfl⟩
  rw [← h1]
  exact C33_last_estimator_wins [5, 6] [_] _ _

/-- **C44.** Equipping nodes again — the copy included — does not detach a copy: whatever node the updates of `r` were bound to before
(for a copy: the original), they stay bound to it.  Only a node that was never equipped is bound to itself. -/
theorem C44_copy_stays_bound (nodes : List Ref) (e : Estimator) (h : Heap) (r t : Ref) (k : Upd) :
    ∃ h', nodeEstimator env nodes e h = (.ok nodes, h') ∧
      (Upd.target h (k, r) = some t → Upd.target h' (k, r) = some t) ∧
      (Upd.target h (k, r) = none → r ∈ nodes → Upd.target h' (k, r) = some r) := by
  obtain ⟨h', h1, -, h3, h4⟩ := nodeEstimator_run (env := env) e nodes h
  have hb : ∀ {α : Type} (o : Option (Ref × α)) (p : α), (rebind r o p).map Prod.fst = some ((o.map Prod.fst).getD r) := by
    intro α o p; cases o <;> rfl
  refine ⟨h', h1, fun ht => ?_, fun ht hr => ?_⟩
  · by_cases hr : r ∈ nodes
    · cases k <;> simp only [Upd.target] at ht ⊢ <;> rw [h4 r hr] <;> simp only [equipped] <;> rw [hb, ht] <;> rfl
    · cases k <;> simp only [Upd.target] at ht ⊢ <;> rw [h3 r hr] <;> exact ht
  · cases k <;> simp only [Upd.target] at ht ⊢ <;> rw [h4 r hr] <;> simp only [equipped] <;> rw [hb, ht] <;> rfl

end Verif
