import Verif.Props.FirstPass

/-!
# Setting up a factor graph incompletely or in another order (C104)
-/

namespace Verif

open Matrix Gaussian Node Site

variable {env : Env}

/-! ## Without an estimator -/

/-- **C104.** Nodes that were never given an estimator: every iteration over them fails with a `TypeError` at its first update, and no
node is changed. -/
theorem C104_no_estimator (nodes : List Ref) (hne : nodes ≠ []) (h : Heap)
    (hf : ∀ r ∈ nodes, (h.get r).fwdUpdate = none) (hb : ∀ r ∈ nodes, (h.get r).backUpdate = none) :
    epFwdBack env nodes h = (.error .type, h) ∧ epFilter env nodes h = (.error .type, h) ∧
    epSmoother env nodes h = (.error .type, h) ∧ epUpdate env nodes h = (.error .type, h) := by
  have f1 : ∀ r ∈ nodes, fwdCall env r h = (.error .type, h) := by
    intro r hr
    unfold fwdCall
    rw [PyM.get_bind, hf r hr]
    rfl
  have b1 : ∀ r ∈ nodes, backCall env r h = (.error .type, h) := by
    intro r hr
    unfold backCall
    rw [PyM.get_bind, hb r hr]
    rfl
  have key : ∀ (l : List Ref) (body : Ref → PyM Heap Unit), l ≠ [] → (∀ r ∈ l, body r h = (.error .type, h)) →
      PyM.forEach l body h = (.error .type, h) := by
    intro l body hl hbody
    cases l with
    | nil => exact absurd rfl hl
    | cons r l => rw [PyM.forEach, PyM.bind_error (hbody r (by simp))]
  have kf := key nodes (fun r => do fwdCall env r; measCall env r) hne fun r hr => PyM.bind_error (f1 r hr) _
  refine ⟨PyM.bind_error kf _, kf, ?_, ?_⟩
  · exact key nodes.reverse _ (by simpa using hne) fun r hr => b1 r (by simpa using hr)
  · exact key nodes _ hne fun r hr => PyM.bind_error (f1 r hr) _

/-- **C104.** A graph that is built and wired to a system, with `node_estimator` forgotten: nothing complains until the first pass, which
raises a `TypeError` and changes nothing. -/
theorem C104_forgotten_estimator (N dim : ℕ) (hN : 2 ≤ N) (sys : Sys) (ys : List Arr) (hys : ys ≠ []) (h : Heap) :
    ∃ h', (do let nodes ← buildNodes env N dim none none; nodeSystem nodes sys ys none : PyM Heap (List Ref)) h =
        (.ok ((List.range' h.size N).take ys.length), h') ∧
      epFwdBack env ((List.range' h.size N).take ys.length) h' = (.error .type, h') ∧
      epFilter env ((List.range' h.size N).take ys.length) h' = (.error .type, h') ∧
      epSmoother env ((List.range' h.size N).take ys.length) h' = (.error .type, h') ∧
      epUpdate env ((List.range' h.size N).take ys.length) h' = (.error .type, h') := by
  obtain ⟨h1, a1, a2, a3, a4⟩ := allocNodes_run dim N 0 h
  obtain ⟨h2, b1, b2, b3, b4⟩ := linkLoop_run (s := h.size) hN N 0 h1 (by omega)
  rw [Nat.add_zero] at b1
  have hb : buildNodes env N dim none none h = (.ok (List.range' h.size N), h2) := by
    unfold buildNodes
    rw [PyM.bind_ok a1, PyM.bind_ok b1]
    rfl
  obtain ⟨h4, d1, d2, d3, d4⟩ := C32_wiring (List.range' h.size N) sys ys h2 List.nodup_range'
    (by intro h0; have := congrArg List.length h0; simp at this; omega) hys
  have hnone : ∀ r ∈ (List.range' h.size N).take ys.length, (h4.get r).fwdUpdate = none ∧ (h4.get r).backUpdate = none := by
    intro r hr
    obtain ⟨i, hi, rfl⟩ := List.getElem_of_mem hr
    rw [List.length_take, List.length_range'] at hi
    have hi1 : i < ys.length := by omega
    have hi2 : i < N := by omega
    rw [List.getElem_take, List.getElem_range', Nat.one_mul]
    rw [d4 i (h.size + i) ys[i] (by simp [hi2]) (List.getElem?_eq_getElem hi1), b4 i (Nat.zero_le _) hi2, a4 i hi2]
    exact ⟨rfl, rfl⟩
  refine ⟨h4, (PyM.bind_ok hb _).trans d1, C104_no_estimator _ ?_ h4 (fun r hr => (hnone r hr).1) fun r hr => (hnone r hr).2⟩
  intro h0
  have h5 := congrArg List.length h0
  have h6 := List.length_pos_of_ne_nil hys
  rw [List.length_take, List.length_range', List.length_nil] at h5
  omega

/-! ## The order of the setup -/

/-- **C104.** Whether the nodes get their estimator before or after their system makes no difference, as long as there is a measurement
for every node. -/
theorem C104_order (nodes : List Ref) (hn : nodes.Nodup) (hne : nodes ≠ []) (e : Estimator) (sys : Sys) (ys : List Arr)
    (hlen : nodes.length ≤ ys.length) (h : Heap) :
    ∃ h', (do let a ← nodeEstimator env nodes e; nodeSystem a sys ys none : PyM Heap (List Ref)) h = (.ok nodes, h') ∧
      (do let a ← nodeSystem nodes sys ys none; nodeEstimator env a e : PyM Heap (List Ref)) h = (.ok nodes, h') := by
  have hys : ys ≠ [] := by
    intro h0
    rw [h0] at hlen
    exact hne (List.length_eq_zero_iff.1 (by simpa using hlen))
  have ht : nodes.take ys.length = nodes := List.take_of_length_le hlen
  obtain ⟨h1, a1, a2, a3, a4⟩ := nodeEstimator_run (env := env) e nodes h
  obtain ⟨h2, b1, b2, b3, b4⟩ := C32_wiring nodes sys ys h1 hn hne hys
  obtain ⟨k1, c1, c2, c3, c4⟩ := C32_wiring nodes sys ys h hn hne hys
  obtain ⟨k2, d1, d2, d3, d4⟩ := nodeEstimator_run (env := env) e nodes k1
  rw [ht] at b1 b3 c1 c3
  have hk : k2 = h2 := by
    refine Heap.ext' (fun r => ?_) (by rw [d2, c2, b2, a2])
    by_cases hr : r ∈ nodes
    · obtain ⟨i, hi, rfl⟩ := List.getElem_of_mem hr
      have hy := List.getElem?_eq_getElem (show i < ys.length by omega)
      rw [d4 _ hr, c4 i _ _ (List.getElem?_eq_getElem hi) hy, b4 i _ _ (List.getElem?_eq_getElem hi) hy, a4 _ hr]
      rfl
    · rw [d3 r hr, c3 r hr, b3 r hr, a3 r hr]
  exact ⟨h2, (PyM.bind_ok a1 _).trans b1, (PyM.bind_ok c1 _).trans (hk ▸ d1)⟩

/-! ## Fewer measurements than nodes -/

/-- Node `i` of a graph when there is no measurement for it. -/
noncomputable def unwiredNode (env : Env) (e : Estimator) (s N dim i : ℕ) : Node where
  index := i
  dim := dim
  prev := if i = 0 then none else some (s + (i - 1))
  next := if i + 1 < N then some (s + (i + 1)) else none
  marginal := asMarginal dim
  measFactor := asFactor dim
  backFactor := asFactor dim
  fwdFactor := asFactor dim
  power := some e.power
  damping := some e.damping
  fwdUpdate := some (s + i, e.projTrans)
  measUpdate := some (s + i, e.projMeas env)
  backUpdate := some (s + i, e.projBack env)

/-- **C104.** With fewer measurements than nodes only the nodes that have a measurement are returned.  The others exist, remain linked to
them, and have no transition, no measurement function and no measurement. -/
theorem C104_few_measurements (N dim : ℕ) (hN : 2 ≤ N) (e : Estimator) (sys : Sys) (ys : List Arr) (hys : ys ≠ []) (h : Heap) :
    ∃ h', graph env N dim e sys ys h = (.ok ((List.range' h.size N).take ys.length), h') ∧ h'.size = h.size + N ∧
      (∀ (i : ℕ) (y : Arr), i < N → ys[i]? = some y → h'.get (h.size + i) = builtNode env e sys h.size N dim i y) ∧
      ∀ i, i < N → ys.length ≤ i → h'.get (h.size + i) = unwiredNode env e h.size N dim i := by
  obtain ⟨h1, a1, a2, a3, a4⟩ := allocNodes_run dim N 0 h
  obtain ⟨h2, b1, b2, b3, b4⟩ := linkLoop_run (s := h.size) hN N 0 h1 (by omega)
  rw [Nat.add_zero] at b1
  obtain ⟨h3, c1, c2, c3, c4⟩ := nodeEstimator_run (env := env) e (List.range' h.size N) h2
  obtain ⟨h4, d1, d2, d3, d4⟩ := C32_wiring (List.range' h.size N) sys ys h3 List.nodup_range'
    (by intro h0; have := congrArg List.length h0; simp at this; omega) hys
  have hb : buildNodes env N dim none none h = (.ok (List.range' h.size N), h2) := by
    unfold buildNodes
    rw [PyM.bind_ok a1, PyM.bind_ok b1]
    rfl
  have hg : graph env N dim e sys ys h = (.ok ((List.range' h.size N).take ys.length), h4) :=
    (PyM.bind_ok hb _).trans ((PyM.bind_ok c1 _).trans d1)
  refine ⟨h4, hg, by rw [d2, c2, b2, a2], fun i y hi hy => ?_, fun i hi hl => ?_⟩
  · obtain ⟨k, k1, -, -, k4⟩ := graph_run (env := env) N dim hN e sys ys hys h
    rw [hg] at k1
    rw [(Prod.mk.inj k1).2]
    exact k4 i y hi hy
  · have hnm : h.size + i ∉ (List.range' h.size N).take ys.length := by
      intro hm
      obtain ⟨j, hj, hij⟩ := List.getElem_of_mem hm
      rw [List.getElem_take, List.getElem_range', Nat.one_mul] at hij
      rw [List.length_take] at hj
      omega
    rw [d3 _ hnm, c4 _ (by simp only [List.mem_range'_1]; omega), b4 i (Nat.zero_le _) hi, a4 i hi]
    rw [Nat.zero_add]
    simp only [unwiredNode, equipped, chained, Node.init, rebind]

/-- The measurement update of a node without a measurement never returns. -/
theorem measCall_unwired {r : Ref} {h : Heap} {p : ProjMeas} (h1 : (h.get r).measUpdate = some (r, p)) (h2 : (h.get r).meas = none) :
    ∃ er, measCall env r h = (.error er, h) ∧
      ∀ g, (h.get r).marginal.truediv env (h.get r).measFactor = .ok g → er = .attribute := by
  unfold measCall
  rw [PyM.get_bind, h1]
  dsimp only
  rw [measUpdateBody_eq]
  cases hc : (h.get r).marginal.truediv env (h.get r).measFactor with
  | error er => exact ⟨er, rfl, fun g hg => by cases hg⟩
  | ok g => exact ⟨.attribute, by simp only [measValue, h2, attr, error_bind], fun _ _ => rfl⟩

theorem executes_reaches {cs : List (Upd × Ref)} {h h' : Heap} (x : Executes env cs h (.ok ()) h') {c : Upd × Ref} (hc : c ∈ cs) :
    ∃ pre h1 h2, Executes env pre h (.ok ()) h1 ∧ afterCalls env pre h = h1 ∧ Upd.call env c h1 = (.ok (), h2) := by
  induction cs generalizing h with
  | nil => cases hc
  | cons d ds ih =>
    cases x with
    | step hd hx =>
      rcases List.mem_cons.1 hc with rfl | hc'
      · exact ⟨[], h, _, .done _, rfl, hd⟩
      · obtain ⟨pre, h1, h2, e1, e2, e3⟩ := ih hx hc'
        refine ⟨d :: pre, h1, h2, .step hd e1, ?_, e3⟩
        rw [← e2]
        simp only [afterCalls, List.foldl_cons, hd]

/-- **C104.** Iterating over all the nodes instead of the returned ones, when there are too few measurements, never returns normally: at
the latest the measurement update of the first node without a measurement raises. -/
theorem C104_all_nodes (N dim : ℕ) (hN : 2 ≤ N) (e : Estimator) (sys : Sys) (ys : List Arr) (hys : ys ≠ []) (hlen : ys.length < N)
    (h : Heap) : ∃ h', (graph env N dim e sys ys h).2 = h' ∧
      ∀ calls, (epFwdBack env (List.range' h.size N) (afterCalls env calls h')).1 ≠ .ok () ∧
        (epFilter env (List.range' h.size N) (afterCalls env calls h')).1 ≠ .ok () ∧
        (epUpdate env (List.range' h.size N) (afterCalls env calls h')).1 ≠ .ok () := by
  obtain ⟨h', g1, g2, g3, g4⟩ := C104_few_measurements (env := env) N dim hN e sys ys hys h
  refine ⟨h', by rw [g1], fun calls => ?_⟩
  have hmem : h.size + ys.length ∈ List.range' h.size N := by simp only [List.mem_range'_1]; omega
  have hnode := g4 ys.length hlen le_rfl
  have key : ∀ (cs : List (Upd × Ref)) r k, (Upd.meas, h.size + ys.length) ∈ cs → Executes env cs (afterCalls env calls h') r k →
      r ≠ .ok () := by
    intro cs r k hc x hr
    subst hr
    obtain ⟨pre, h1, h2, -, e2, e3⟩ := executes_reaches x hc
    have hloc := (C35_schedule_is_local (env := env) (calls ++ pre) h' (h.size + ys.length)).1
    have happ : afterCalls env (calls ++ pre) h' = h1 := by rw [← e2]; simp only [afterCalls, List.foldl_append]
    rw [happ, hnode] at hloc
    obtain ⟨er, he, -⟩ := measCall_unwired (env := env) (r := h.size + ys.length) (h := h1) (p := e.projMeas env)
      (by rw [hloc]; rfl) (by rw [hloc]; rfl)
    rw [show Upd.call env (Upd.meas, h.size + ys.length) h1 = measCall env (h.size + ys.length) h1 from rfl, he] at e3
    cases e3
  refine ⟨key _ _ _ ?_ (C39_pass_order _ _), key _ _ _ ?_ (C39_other_orders _ _).1, key _ _ _ ?_ (C39_other_orders _ _).2.2⟩
  · exact List.mem_append_left _ (List.mem_flatMap.2 ⟨_, hmem, by simp⟩)
  · exact List.mem_flatMap.2 ⟨_, hmem, by simp⟩
  · exact List.mem_flatMap.2 ⟨_, hmem, by simp⟩

/-- A transform that calls the function it is given: if that raises, so does the transform. -/
def Transform.Calls (T : Transform) : Prop := ∀ er g, ∃ er', T (fun _ => .error er) g = .error er'

theorem bind_fails {α β : Type} (x : Py α) {f : α → Py β} (hf : ∀ a, ∃ er, f a = .error er) : ∃ er, (x >>= f) = .error er := by
  cases x with
  | error er => exact ⟨er, rfl⟩
  | ok a => exact hf a

/-- The unscented transform calls its function. -/
theorem C104_unscented_calls (u : UT) : (u.transform env).Calls := by
  intro er g
  unfold UT.transform
  refine bind_fails _ fun _ => bind_fails _ fun _ => bind_fails _ fun _ => ⟨er, rfl⟩

/-- So does the Monte Carlo transform. -/
theorem C104_monte_carlo_calls (draw : Draw) (n : ℕ) : (mcTransform env draw n).Calls := by
  intro er g
  unfold mcTransform
  exact bind_fails _ fun _ => ⟨er, rfl⟩

/-- So does linearisation, if the Jacobian is found at all. -/
theorem C104_taylor_calls (jac : Jac) : (taylorTransform env jac).Calls := by
  intro er g
  unfold taylorTransform
  exact bind_fails _ fun _ => bind_fails _ fun _ => bind_fails _ fun _ => ⟨er, rfl⟩

/-- **C104.** With fewer measurements than nodes the last of the returned nodes has a successor that was never wired.  Whatever is run,
its backward update changes nothing: its backward factor stays the flat one it was made with. -/
theorem C104_last_back (N dim : ℕ) (hN : 2 ≤ N) (e : Estimator) (he : e.transMap.Calls) (sys : Sys) (ys : List Arr) (hys : ys ≠ [])
    (hlen : ys.length < N) (h : Heap) : ∃ h', (graph env N dim e sys ys h).2 = h' ∧
      ∀ calls, (backCall env (h.size + (ys.length - 1)) (afterCalls env calls h')).2 = afterCalls env calls h' ∧
        ((∀ c ∈ calls, c.2 ∈ List.range' h.size N) →
          ((afterCalls env calls h').get (h.size + (ys.length - 1))).backFactor = asFactor dim) := by
  obtain ⟨h', g1, g2, g3, g4⟩ := C104_few_measurements (env := env) N dim hN e sys ys hys h
  have hpos := List.length_pos_of_ne_nil hys
  refine ⟨h', by rw [g1], ?_⟩
  have hlast := g3 (ys.length - 1) _ (by omega) (List.getElem?_eq_getElem (show ys.length - 1 < ys.length by omega))
  have hnext := g4 ys.length hlen le_rfl
  have key : ∀ calls, (backCall env (h.size + (ys.length - 1)) (afterCalls env calls h')).2 = afterCalls env calls h' := by
    intro calls
    have l1 := (C35_schedule_is_local (env := env) calls h' (h.size + (ys.length - 1))).1
    have l2 := (C35_schedule_is_local (env := env) calls h' (h.size + ys.length)).1
    rw [hlast] at l1
    rw [hnext] at l2
    generalize afterCalls env calls h' = k at *
    have n1 : (k.get (h.size + (ys.length - 1))).backUpdate = some (h.size + (ys.length - 1), e.projBack env) := by rw [l1]; rfl
    have n2 : (k.get (h.size + (ys.length - 1))).next = some (h.size + ys.length) := by
      rw [l1]
      exact (if_pos (by omega)).trans (by rw [show ys.length - 1 + 1 = ys.length by omega])
    have n3 : (k.get (h.size + ys.length)).transFunc = fun _ => .error .type := by rw [l2]; rfl
    unfold backCall
    rw [PyM.get_bind, n1]
    dsimp only
    rw [backUpdateBody_eq]
    cases hc : (k.get (h.size + (ys.length - 1))).marginal.truediv env (k.get (h.size + (ys.length - 1))).backFactor with
    | error er => rfl
    | ok c =>
      dsimp only
      cases hn : nextFwdCavity env k (k.get (h.size + (ys.length - 1))) with
      | error er => cases er <;> rfl
      | ok r =>
        obtain ⟨next, nc⟩ := r
        have hnx : next = k.get (h.size + ys.length) := by
          unfold nextFwdCavity at hn
          rw [n2] at hn
          simp only [attr, ok_bind] at hn
          obtain ⟨_, -, hn⟩ := py_bind_ok hn
          obtain ⟨_, -, hn⟩ := py_bind_ok hn
          obtain ⟨_, -, hn⟩ := py_bind_ok hn
          obtain ⟨_, -, hn⟩ := py_bind_ok hn
          exact (Prod.mk.inj (Except.ok.inj hn)).1.symm
        obtain ⟨er, her⟩ := he .type c
        have hv : backValue env (k.get (h.size + (ys.length - 1))) next (e.projBack env) c nc = .error er := by
          simp only [backValue, hnx, n3, Estimator.projBack, her, error_bind]
        dsimp only
        rw [hv]
        cases er <;> rfl
  refine fun calls => ⟨key calls, ?_⟩
  induction calls using List.reverseRecOn with
  | nil =>
    intro _
    show (h'.get _).backFactor = _
    rw [hlast]; rfl
  | append_singleton calls c ih =>
    intro hc
    have happ : afterCalls env (calls ++ [c]) h' = (Upd.call env c (afterCalls env calls h')).2 := by
      simp only [afterCalls, List.foldl_append, List.foldl_cons, List.foldl_nil]
    rw [happ]
    have ih' := ih fun c' hc' => hc c' (List.mem_append_left _ hc')
    obtain ⟨u, r⟩ := c
    have hr := hc (u, r) (by simp)
    obtain ⟨-, c2, -, -, -, c6⟩ := C35_update_is_local (env := env) (u, r) (afterCalls env calls h')
      (Upd.call env (u, r) (afterCalls env calls h')).2 (Upd.call env (u, r) (afterCalls env calls h')).1 rfl
    by_cases hu : u = .back
    · subst hu
      by_cases hrl : r = h.size + (ys.length - 1)
      · subst hrl
        exact (congrArg (fun k : Heap => (k.get (h.size + (ys.length - 1))).backFactor) (key calls)).trans ih'
      · rw [c2 _ ?_, ih']
        have l1 := (C35_schedule_is_local (env := env) calls h' r).1
        obtain ⟨i, hi, rfl⟩ : ∃ i, i < N ∧ r = h.size + i := ⟨r - h.size, by
          simp only [List.mem_range'_1] at hr; omega, (Nat.add_sub_of_le (List.mem_range'_1.1 hr).1).symm⟩
        have hb : (h'.get (h.size + i)).backUpdate = some (h.size + i, e.projBack env) := by
          by_cases hi' : i < ys.length
          · rw [g3 i _ hi (List.getElem?_eq_getElem hi')]; rfl
          · rw [g4 i hi (by omega)]; rfl
        simp only [Upd.target]
        rw [l1]
        simp only [hb, Option.map_some, ne_eq, Option.some.injEq]
        exact hrl
    · exact (c6 hu _).trans ih'

/-! ## The first pass over a scalar state -/

/-- Two heaps agree on the nodes `S`. -/
def AgreeOn (S : Ref → Prop) (h k : Heap) : Prop := ∀ r, S r → h.get r = k.get r

/-- The forward and measurement updates of the nodes `S` run the methods of these nodes, and their predecessors are in `S`. -/
def Closed (S : Ref → Prop) (h : Heap) : Prop := ∀ r, S r → (∃ p, (h.get r).fwdUpdate = some (r, p)) ∧
  (∃ p, (h.get r).measUpdate = some (r, p)) ∧ ∀ q, (h.get r).prev = some q → S q

theorem AgreeOn.update {S : Ref → Prop} {h k : Heap} (ha : AgreeOn S h k) (r : Ref) (f : Node → Node) (hr : S r) :
    AgreeOn S (h.update r f) (k.update r f) := by
  intro q hq
  rw [Heap.update_get, Heap.update_get, ha r hr, ha q hq]

/-- Forward and measurement updates read nothing but their node and its predecessor. -/
theorem AgreeOn.call {S : Ref → Prop} {h k : Heap} (ha : AgreeOn S h k) (hs : Closed S h) {c : Upd × Ref} (hb : c.1 ≠ .back) (hc : S c.2) :
    (Upd.call env c h).1 = (Upd.call env c k).1 ∧ AgreeOn S (Upd.call env c h).2 (Upd.call env c k).2 ∧ Closed S (Upd.call env c h).2 := by
  have hcl : Closed S (Upd.call env c h).2 := by
    obtain ⟨-, -, c3, -⟩ := C35_update_is_local (env := env) c h (Upd.call env c h).2 (Upd.call env c h).1 rfl
    intro r hr
    rw [c3 r]
    exact hs r hr
  obtain ⟨u, r⟩ := c
  obtain ⟨⟨p, f1⟩, ⟨p', m1⟩, q1⟩ := hs r hc
  have hr := ha r hc
  suffices (Upd.call env (u, r) h).1 = (Upd.call env (u, r) k).1 ∧ AgreeOn S (Upd.call env (u, r) h).2 (Upd.call env (u, r) k).2 from
    ⟨this.1, this.2, hcl⟩
  clear hcl
  cases u with
  | back => exact absurd rfl hb
  | fwd =>
    have eh : Upd.call env (.fwd, r) h = fwdUpdateBody env r p h := by
      show fwdCall env r h = _
      unfold fwdCall
      rw [PyM.get_bind, f1]
    have ek : Upd.call env (.fwd, r) k = fwdUpdateBody env r p k := by
      show fwdCall env r k = _
      unfold fwdCall
      rw [PyM.get_bind, ← hr, f1]
    have hcav : fwdCavity env k (k.get r) = fwdCavity env h (h.get r) := by
      rw [← hr]
      unfold fwdCavity backCavityFromPrev
      cases hp : (h.get r).prev with
      | none => rfl
      | some q => simp only [attr, ok_bind, ha q (q1 q hp)]
    rw [eh, ek, fwdUpdateBody_eq, fwdUpdateBody_eq, hcav, ← hr]
    cases fwdCavity env h (h.get r) with
    | error er => exact ⟨rfl, ha⟩
    | ok g =>
      dsimp only
      cases fwdGuarded env (h.get r) p g with
      | ok x => exact ⟨rfl, ha.update r _ hc⟩
      | error er => cases er <;> exact ⟨rfl, ha⟩
  | meas =>
    have eh : Upd.call env (.meas, r) h = measUpdateBody env r p' h := by
      show measCall env r h = _
      unfold measCall
      rw [PyM.get_bind, m1]
    have ek : Upd.call env (.meas, r) k = measUpdateBody env r p' k := by
      show measCall env r k = _
      unfold measCall
      rw [PyM.get_bind, ← hr, m1]
    rw [eh, ek, measUpdateBody_eq, measUpdateBody_eq, ← hr]
    cases (h.get r).marginal.truediv env (h.get r).measFactor with
    | error er => exact ⟨rfl, ha⟩
    | ok g =>
      dsimp only
      cases measValue env (h.get r) p' g with
      | ok x => exact ⟨rfl, ha.update r _ hc⟩
      | error er => cases er <;> exact ⟨rfl, ha⟩

theorem AgreeOn.calls {S : Ref → Prop} {cs : List (Upd × Ref)} (hb : ∀ c ∈ cs, c.1 ≠ .back ∧ S c.2) : ∀ {h k h' : Heap}, AgreeOn S h k →
    Closed S h → Executes env cs h (.ok ()) h' →
    Executes env cs k (.ok ()) (afterCalls env cs k) ∧ AgreeOn S h' (afterCalls env cs k) := by
  induction cs with
  | nil => intro h k h' ha hs x; cases x; exact ⟨.done _, ha⟩
  | cons c cs ih =>
    intro h k h' ha hs x
    cases x with
    | step hc hx =>
      obtain ⟨e1, e2, e3⟩ := ha.call (env := env) hs (hb c (by simp)).1 (hb c (by simp)).2
      rw [hc] at e1 e2 e3
      obtain ⟨y1, y2⟩ := ih (fun c' hc' => hb c' (by simp [hc'])) e2 e3 hx
      exact ⟨.step (h1 := (Upd.call env c k).2) (Prod.ext e1.symm rfl) y1, y2⟩

variable {e : Estimator} {sys : Sys} {ys : List Arr} {N M : ℕ} {c : Chain}

/-- The calls of the forward sweep over `M` nodes. -/
def sweepCalls (M : ℕ) : List (Upd × ℕ) := (List.range M).flatMap fun i => [(.fwd, i), (.meas, i)]

/-- **C104.** A scalar state, `N` nodes and only the first `M < N` of the measurements.  The forward sweep over the returned nodes
computes the same as if all measurements were there; the pass as a whole raises a `TypeError` at the first backward update, and the nodes
hold the results of the forward sweep. -/
theorem C104_first_pass (hm : Models env e sys ys N c) (hr : c.Regular) (hM : 0 < M) (hMN : M < N)
    (hraise : ∀ g b m p, Mom1 env g b m p → 0 < p → e.transMap (fun _ => .error .type) g = .error .type) (h : Heap) :
    ∃ h1 h2, graph env N 1 e sys (ys.take M) h = (.ok (List.range' h.size M), h1) ∧
      epFilter env (List.range' h.size M) h1 = (.ok (), h2) ∧
      epFwdBack env (List.range' h.size M) h1 = (.error .type, h2) ∧
      ∀ i, i < M → IsNode env (h2.get (h.size + i)) (c.steps N (sweepCalls M) (fun _ => Chain.start) i) := by
  have hlt : (ys.take M).length = M := by rw [List.length_take, hm.length]; omega
  have hne : ys.take M ≠ [] := by
    intro h0
    rw [h0, List.length_nil] at hlt
    omega
  have hne' : ys ≠ [] := by
    intro h0
    rw [h0] at hne
    simp at hne
  obtain ⟨k1, k2, k3, k4, k5⟩ := C104_few_measurements (env := env) N 1 hm.two e sys (ys.take M) hne h
  obtain ⟨f1, f2, -, f4, -⟩ := C104_few_measurements (env := env) N 1 hm.two e sys ys hne' h
  obtain ⟨f1', h2, g1, g2, g3⟩ := C66_no_update_fails hm hr h (sweepCalls M) (by
    intro k hk
    simp only [sweepCalls, List.mem_flatMap, List.mem_range, List.mem_cons, List.not_mem_nil, or_false] at hk
    obtain ⟨i, hi, rfl | rfl⟩ := hk <;> exact hi.trans hMN)
  rw [f2] at g1
  obtain ⟨-, rfl⟩ := Prod.mk.inj g1
  have hobs : ∀ i, i < M → ∃ y, ys[i]? = some y ∧ (ys.take M)[i]? = some y := by
    intro i hi
    obtain ⟨y, hy⟩ := hm.get_obs (hi.trans hMN)
    exact ⟨y, hy, by rw [List.getElem?_take_of_lt hi, hy]⟩
  have ha : AgreeOn (fun r => ∃ i, i < M ∧ r = h.size + i) f1 k1 := by
    rintro r ⟨i, hi, rfl⟩
    obtain ⟨y, y1, y2⟩ := hobs i hi
    rw [f4 i y (hi.trans hMN) y1, k4 i y (hi.trans hMN) y2]
  have hs : Closed (fun r => ∃ i, i < M ∧ r = h.size + i) f1 := by
    rintro r ⟨i, hi, rfl⟩
    obtain ⟨y, y1, y2⟩ := hobs i hi
    rw [f4 i y (hi.trans hMN) y1]
    refine ⟨⟨_, rfl⟩, ⟨_, rfl⟩, fun q hq => ?_⟩
    simp only [builtNode] at hq
    split_ifs at hq
    exact ⟨i - 1, by omega, (Option.some.inj hq).symm⟩
  obtain ⟨x1, x2⟩ := AgreeOn.calls (env := env) (S := fun r => ∃ i, i < M ∧ r = h.size + i)
    (cs := (sweepCalls M).map fun k => (k.1, h.size + k.2)) (by
      intro k hk
      simp only [sweepCalls, List.mem_map, List.mem_flatMap, List.mem_range, List.mem_cons, List.not_mem_nil, or_false] at hk
      obtain ⟨-, ⟨i, hi, rfl | rfl⟩, rfl⟩ := hk <;> exact ⟨by simp, i, hi, rfl⟩) ha hs g2
  have hmap : (sweepCalls M).map (fun k => (k.1, h.size + k.2)) =
      (List.range' h.size M).flatMap (fun r => [(Upd.fwd, r), (Upd.meas, r)]) := by
    rw [List.range'_eq_map_range, sweepCalls, List.map_flatMap, List.flatMap_map]
    rfl
  have hfil : epFilter env (List.range' h.size M) k1 = (.ok (), afterCalls env ((sweepCalls M).map fun k => (k.1, h.size + k.2)) k1) := by
    have := (C39_other_orders (env := env) (List.range' h.size M) k1).1
    rw [← hmap] at this
    obtain ⟨z1, z2⟩ := executes_fun this x1
    exact Prod.ext z1 z2
  have hnodes : ∀ i, i < M → IsNode env ((afterCalls env ((sweepCalls M).map fun k => (k.1, h.size + k.2)) k1).get (h.size + i))
      (c.steps N (sweepCalls M) (fun _ => Chain.start) i) := by
    intro i hi
    rw [← x2 _ ⟨i, hi, rfl⟩]
    exact g3 i (hi.trans hMN)
  refine ⟨k1, _, ?_, hfil, ?_, hnodes⟩
  · rw [k2, hlt]
    congr 2
    apply List.ext_getElem
    · simp; omega
    · intro i h1 h2
      simp
  · have hl1 := (C35_schedule_is_local (env := env) ((sweepCalls M).map fun k => (k.1, h.size + k.2)) k1 (h.size + (M - 1))).1
    have hl2 := (C35_schedule_is_local (env := env) ((sweepCalls M).map fun k => (k.1, h.size + k.2)) k1 (h.size + M)).2 (by
      intro k hk
      simp only [sweepCalls, List.mem_map, List.mem_flatMap, List.mem_range, List.mem_cons, List.not_mem_nil, or_false] at hk
      obtain ⟨-, ⟨i, hi, rfl | rfl⟩, rfl⟩ := hk <;>
      · obtain ⟨y, y1, y2⟩ := hobs i hi
        simp only [Upd.target]
        rw [k4 i y (hi.trans hMN) y2]
        simp only [builtNode, Option.map_some, ne_eq, Option.some.injEq]
        exact ref_ne (by omega))
    have hnd := hnodes (M - 1) (by omega)
    obtain ⟨y, y1, y2⟩ := hobs (M - 1) (by omega)
    rw [k4 _ y (by omega) y2] at hl1
    rw [k5 M hMN (by omega)] at hl2
    refine (PyM.bind_ok hfil _).trans ?_
    generalize afterCalls env ((sweepCalls M).map fun k => (k.1, h.size + k.2)) k1 = k at *
    have hrev : (List.range' h.size M).reverse = (h.size + (M - 1)) :: (List.range' h.size (M - 1)).reverse := by
      obtain ⟨m, rfl⟩ : ∃ m, M = m + 1 := ⟨M - 1, by omega⟩
      rw [List.range'_concat]
      simp
    have hback : backCall env (h.size + (M - 1)) k = (.error .type, k) := by
      have n1 : (k.get (h.size + (M - 1))).backUpdate = some (h.size + (M - 1), e.projBack env) := by rw [hl1]; rfl
      have n2 : (k.get (h.size + (M - 1))).next = some (h.size + M) := by
        rw [hl1]
        exact (if_pos (by omega)).trans (by rw [show M - 1 + 1 = M by omega])
      have n3 : (k.get (h.size + (M - 1))).power = some c.α := by rw [hl1, ← hm.power]; rfl
      have hM1 : Is env (unwiredNode env e h.size N 1 M).marginal Chain.start.M := Enc.is hm.calm (.inr ⟨rfl, rfl⟩)
      have hF1 : NatIs env (unwiredNode env e h.size N 1 M).fwdFactor Chain.start.F := by
        rw [show (unwiredNode env e h.size N 1 M).fwdFactor = nG Chain.start.F from asFactor_nG]; exact natIs_nG _
      unfold backCall
      rw [PyM.get_bind, n1]
      dsimp only
      rw [backUpdateBody_eq, hnd.M.nat.truediv hnd.B.nat]
      simp only [nextFwdCavity, n2, attr, ok_bind, n3, pyDiv, if_neg hr.α.ne', hl2, hF1.pow, hM1.nat.truediv (natIs_nG _), py_pure,
        backValue, Estimator.projBack]
      rw [show (unwiredNode env e h.size N 1 M).transFunc = fun _ => .error .type from rfl,
        hraise _ _ _ _ (is_nG hm.calm _).mom (Site.var_pos _)]
      rfl
    rw [hrev, PyM.forEach, PyM.bind_error hback]

/-- The unscented transform meets the last hypothesis: it gets as far as calling the function. -/
theorem C104_unscented_raises {P : UTParams} {u : UT} (hu : UT.init 1 P.a P.b P.k = .ok u) (hP : P.Good) (g : Gaussian) (b : Bool)
    (m p : ℝ) (hg : Mom1 env g b m p) (hp : 0 < p) : u.transform env (fun _ => .error .type) g = .error .type := by
  have h1 := unscented_realises (env := env) hu hP.spread (f := fun x => .ok x) (F := fun x => x) (fun n X => by
    congr 2; ext i j; rw [Subsingleton.elim j 0]; rfl) g b m p hg hp
  unfold UT.transform at h1 ⊢
  obtain ⟨a1, e1, h1⟩ := py_bind_ok h1
  obtain ⟨a2, e2, h1⟩ := py_bind_ok h1
  obtain ⟨a3, e3, -⟩ := py_bind_ok h1
  rw [e1, ok_bind, e2, ok_bind, e3]
  rfl

/-- **C104.** For the growth model of the experiments and unscented transforms. -/
theorem C104_growth_model {P P' : UTParams} {α γ : ℝ} {u u' : UT} {y : ℕ → ℝ}
    (hcalm : ∀ A : Matrix (Fin 1) (Fin 1) ℝ, env.illPos A = false)
    (hu : UT.init 1 P.a P.b P.k = .ok u) (hu' : UT.init 1 P'.a P'.b P'.k = .ok u') (hP : P.Good) (hP' : P'.Good) (hα : 0 < α)
    (hsys : UNGM.init = .ok sys) (hM : 0 < M) (hMN : M < N) (hlen : ys.length = M)
    (hy : ∀ i a, ys[i]? = some a → IsVec a.squeeze (v1 (y i))) (h : Heap) :
    ∃ h1 h2, graph env N 1 ⟨u.transform env, u'.transform env, some sys.Q, some sys.R, α, γ⟩ sys ys h =
        (.ok (List.range' h.size M), h1) ∧
      epFilter env (List.range' h.size M) h1 = (.ok (), h2) ∧ epFwdBack env (List.range' h.size M) h1 = (.error .type, h2) := by
  have hpad : ∀ i a, (ys ++ List.replicate (N - M) (Arr.s 0))[i]? = some a →
      IsVec a.squeeze (v1 (if i < M then y i else 0)) := by
    intro i a ha
    by_cases hi : i < M
    · rw [List.getElem?_append_left (by omega)] at ha
      rw [if_pos hi]
      exact hy i a ha
    · rw [List.getElem?_append_right (by omega), List.getElem?_replicate] at ha
      split_ifs at ha
      rw [if_neg hi, ← Option.some.inj ha]
      exact isVec_s 0
  obtain ⟨h1, h2, e1, e2, e3, -⟩ := C104_first_pass (M := M) (N := N)
    (ungm_models (α := α) (γ := γ) hcalm hu hu' hP hP' hsys (by omega)
      (show (ys ++ List.replicate (N - M) (Arr.s 0)).length = N by simp [hlen]; omega) hpad)
    (unscented_regular hP hP' hα one_pos (by norm_num) (by norm_num) _ _ _) hM hMN
    (fun g b m p hg hp => C104_unscented_raises hu hP g b m p hg hp) h
  refine ⟨h1, h2, ?_, e2, e3⟩
  rwa [List.take_append_of_le_length (by omega), List.take_of_length_le (by omega)] at e1

/-- Three nodes and two measurements. -/
example (h : Heap) : ∃ u sys h1 h2, UT.init 1 1 2 0 = .ok u ∧ UNGM.init = .ok sys ∧
    graph calmEnv 3 1 ⟨u.transform calmEnv, u.transform calmEnv, some sys.Q, some sys.R, 1, 1⟩ sys [.s 1, .s 2] h =
      (.ok [h.size, h.size + 1], h1) ∧
    epFwdBack calmEnv [h.size, h.size + 1] h1 = (.error .type, h2) := by
  have hP : UTParams.Good ⟨1, 2, 0⟩ := ⟨by norm_num, by norm_num⟩
  obtain ⟨u, hu⟩ := init_ok hP
  obtain ⟨sys, hsys⟩ : ∃ sys, UNGM.init = .ok sys := ⟨_, rfl⟩
  obtain ⟨h1, h2, e1, -, e3⟩ := C104_growth_model (env := calmEnv) (P := ⟨1, 2, 0⟩) (P' := ⟨1, 2, 0⟩) (α := 1) (γ := 1) (N := 3) (M := 2)
    (ys := [.s 1, .s 2]) (y := fun i => if i = 0 then 1 else 2) (fun _ => rfl) hu hu hP hP one_pos hsys (by norm_num) (by norm_num) rfl
    (by
      intro i a ha
      match i, ha with
      | 0, ha => rw [← Option.some.inj ha]; exact isVec_s 1
      | 1, ha => rw [← Option.some.inj ha]; exact isVec_s 2) h
  exact ⟨u, sys, h1, h2, hu, hsys, e1, e3⟩

/-- The same in two dimensions: the pass over all three nodes fails, and the second node never hears from the third. -/
example (u : UT) (e : Estimator) (he : e.transMap = u.transform calmEnv) (sys : Sys) (h : Heap) : ∃ h',
    (graph calmEnv 3 2 e sys [.s 1, .s 2] h).2 = h' ∧ (epFwdBack calmEnv [h.size, h.size + 1, h.size + 2] h').1 ≠ .ok () ∧
    ((afterCalls calmEnv [(.fwd, h.size + 1), (.back, h.size + 1)] h').get (h.size + 1)).backFactor = asFactor 2 := by
  obtain ⟨h', e1, e2⟩ := C104_all_nodes (env := calmEnv) 3 2 (by norm_num) e sys [.s 1, .s 2] (by simp) (by simp) h
  obtain ⟨k, e3, e4⟩ := C104_last_back (env := calmEnv) 3 2 (by norm_num) e (he ▸ C104_unscented_calls u) sys [.s 1, .s 2] (by simp)
    (by simp) h
  rw [e1] at e3
  subst e3
  exact ⟨h', e1, (e2 []).1, (e4 _).2 (by simp)⟩

/-- Nodes fresh from `build_nodes` have no estimator. -/
example (h : Heap) (sys : Sys) : ∃ h', (do let nodes ← buildNodes calmEnv 3 2 none none; nodeSystem nodes sys [.s 1, .s 2, .s 3] none :
    PyM Heap (List Ref)) h = (.ok [h.size, h.size + 1, h.size + 2], h') ∧
    epFwdBack calmEnv [h.size, h.size + 1, h.size + 2] h' = (.error .type, h') := by
  obtain ⟨h', e1, e2, -⟩ := C104_forgotten_estimator (env := calmEnv) 3 2 (by norm_num) sys [.s 1, .s 2, .s 3] (by simp) h
  exact ⟨h', e1, e2⟩

/-- Two nodes and two measurements, in either order. -/
example (h : Heap) (e : Estimator) (sys : Sys) : ∃ h',
    (do let a ← nodeEstimator calmEnv [3, 4] e; nodeSystem a sys [.s 1, .s 2] none : PyM Heap (List Ref)) h = (.ok [3, 4], h') ∧
    (do let a ← nodeSystem [3, 4] sys [.s 1, .s 2] none; nodeEstimator calmEnv a e : PyM Heap (List Ref)) h = (.ok [3, 4], h') :=
  C104_order [3, 4] (by simp) (by simp) e sys _ (by simp) h

end Verif
