import Verif.Model.Demo
import Verif.Spec.Demo
import Verif.Props.GrowthSweep
import Verif.Props.Plot
import Verif.Lemmas.ScalarTidy

/-!
# The demonstration notebook (C109)
-/

namespace Verif

namespace Demo

open Matrix Gaussian Node Site Filter Topology

variable {env : Env} {e : Estimator} {sys : Sys} {ys : List Arr} {N s : ℕ} {c : Chain}

/-! ## Copies -/

section Copies

private theorem moved_range (s N base : ℕ) : (List.range' s N).map (moved (List.range' s N) base) = List.range' base N := by
  refine List.ext_getElem (by simp) fun i h1 h2 => ?_
  have hi : i < N := by simpa using h1
  have hmem : s + i ∈ List.range' s N := by simp [hi]
  have hidx : (List.range' s N).idxOf (s + i) = i := by
    have := (List.nodup_range' (s := s) (n := N)).idxOf_getElem i (by simpa using hi)
    simpa using this
  simp [moved, hmem, hidx]

/-- **C109.** `deepcopy(nodes)` allocates one new node for each of the `N` nodes `s, …, s + N - 1`, with the same contents, whose links lead
to the new nodes and whose updates act on the new nodes; it changes no node that existed. -/
theorem C109_deepcopy (s N : ℕ) (h : Heap) :
    ∃ h', deepcopy (List.range' s N) h = (.ok (List.range' h.size N), h') ∧ h'.size = h.size + N ∧
      (∀ q, q < h.size → h'.get q = h.get q) ∧
      ∀ i, i < N → ∃ nd, h'.get (h.size + i) = nd ∧ nd.marginal = (h.get (s + i)).marginal ∧
        nd.fwdFactor = (h.get (s + i)).fwdFactor ∧ nd.measFactor = (h.get (s + i)).measFactor ∧
        nd.backFactor = (h.get (s + i)).backFactor ∧ nd.meas = (h.get (s + i)).meas ∧
        (∀ j, j < N → (h.get (s + i)).next = some (s + j) → nd.next = some (h.size + j)) ∧
        (∀ j, j < N → (h.get (s + i)).prev = some (s + j) → nd.prev = some (h.size + j)) ∧
        (∀ j p, j < N → (h.get (s + i)).fwdUpdate = some (s + j, p) → nd.fwdUpdate = some (h.size + j, p)) ∧
        (∀ j p, j < N → (h.get (s + i)).measUpdate = some (s + j, p) → nd.measUpdate = some (h.size + j, p)) ∧
        ∀ j p, j < N → (h.get (s + i)).backUpdate = some (s + j, p) → nd.backUpdate = some (h.size + j, p) := by
  refine ⟨_, by rw [deepcopy, moved_range], by simp, fun q hq => by simp [not_le.2 hq], fun i hi => ?_⟩
  have hmv : ∀ j, j < N → moved (List.range' s N) h.size (s + j) = h.size + j := fun j hj => by
    have := congrArg (fun l => l[j]?) (moved_range s N h.size)
    simpa [hj] using this
  refine ⟨_, rfl, ?_⟩
  simp only [Nat.le_add_right, if_true, Nat.add_sub_cancel_left, List.getElem?_range' hi, one_mul]
  refine ⟨rfl, rfl, rfl, rfl, rfl, fun j hj e => ?_, fun j hj e => ?_, fun j p hj e => ?_, fun j p hj e => ?_, fun j p hj e => ?_⟩
  · simp only [copyNode, e, Option.map_some, hmv j hj]
  · simp only [copyNode, e, Option.map_some, hmv j hj]
  · simp only [copyNode, e, Option.map_some, hmv j hj]
  · simp only [copyNode, e, Option.map_some, hmv j hj]
  · simp only [copyNode, e, Option.map_some, hmv j hj]

end Copies

/-! ## Shapes -/

private theorem sh_step (k : Upd × ℕ) (V : ℕ → Vals) (i : ℕ) (h : (V i).M.sh = true ∨ k = (.meas, i)) : (c.step N k V i).M.sh = true := by
  obtain ⟨u, j⟩ := k
  by_cases hj : i = j
  · subst hj
    rcases u with _ | _ | _
    · have h : (V i).M.sh = true := by simpa using h
      simp only [Chain.step, Chain.fwd, Function.update_self]
      change ((V i).M.sh || _) = true
      rw [h, Bool.true_or]
    · simp only [Chain.step, Chain.meas, Function.update_self]
      change ((V i).M.sh || (true || (V i).M.sh)) = true
      simp
    · have h : (V i).M.sh = true := by simpa using h
      simp only [Chain.step]
      split_ifs
      · simp only [Chain.back, Function.update_self]
        change ((V i).M.sh || _) = true
        rw [h, Bool.true_or]
      · exact h
  · have hV : (V i).M.sh = true := by
      rcases h with h | h
      · exact h
      · exact absurd (congrArg Prod.snd h).symm hj
    clear h
    rcases u with _ | _ | _
    · simpa [Chain.step, Chain.fwd, Function.update_of_ne hj] using hV
    · simpa [Chain.step, Chain.meas, Function.update_of_ne hj] using hV
    · simp only [Chain.step]
      split_ifs
      · simpa [Chain.back, Function.update_of_ne hj] using hV
      · exact hV

private theorem sh_steps (i : ℕ) : ∀ (calls : List (Upd × ℕ)) (V : ℕ → Vals), ((V i).M.sh = true ∨ (Upd.meas, i) ∈ calls) →
    (c.steps N calls V i).M.sh = true
  | [], V, h => by simpa [Chain.steps] using h
  | k :: calls, V, h => by
    refine sh_steps i calls (c.step N k V) ?_
    rcases h with h | h
    · exact .inl (sh_step k V i (.inl h))
    · rcases List.mem_cons.1 h with h | h
      · exact .inl (sh_step k V i (.inr h.symm))
      · exact .inr h

private theorem sh_passes {i : ℕ} (hi : i < N) (V : ℕ → Vals) (k : ℕ) : ((c.steps N (passCalls N))^[k + 1] V i).M.sh = true := by
  rw [Function.iterate_succ_apply']
  refine sh_steps i _ _ (.inr ?_)
  simp only [passCalls, List.mem_append, List.mem_flatMap, List.mem_range]
  exact .inl ⟨i, hi, by simp⟩

/-! ## Pictures and scores of scalar states -/

private theorem getElem_scalar (x : ℕ → ℝ) {i : ℕ} (h : i < ((List.range N).map fun i => Arr.v (v1 (x i))).length) :
    ((List.range N).map fun i => Arr.v (v1 (x i)))[i] = Arr.v (v1 (x i)) := by simp

private theorem stackRows_scalar (hN : 0 < N) (x : ℕ → ℝ) : stackRows ((List.range N).map fun i => .v (v1 (x i))) =
    .ok (.m (Matrix.of fun (t : Fin ((List.range N).map fun i => Arr.v (v1 (x i))).length) (_ : Fin 1) => x t)) := by
  unfold stackRows
  have hh : ((List.range N).map fun i => Arr.v (v1 (x i))).head? = some (Arr.v (v1 (x 0))) := by
    obtain ⟨n, rfl⟩ : ∃ n, N = n + 1 := ⟨N - 1, by omega⟩
    rw [List.range_succ_eq_map]
    rfl
  rw [hh]
  dsimp only
  rw [if_pos (by simp [Arr.shape])]
  refine congrArg (fun M => Except.ok (Arr.m M)) ?_
  ext t i
  simp only [of_apply, Fin.getElem_fin, getElem_scalar]
  rw [Fin.eq_zero i]
  simp [Arr.entries, v1]

private theorem ofFn_scalar {α : Type} {l : ℕ} (hl : l = N) (f : ℕ → α) : (List.ofFn fun t : Fin l => f t) = (List.range N).map f := by
  subst hl
  refine List.ext_getElem (by simp) fun i h1 h2 => by simp

private theorem plotColumns_scalar (hN : 0 < N) (x : ℕ → ℝ) : plotColumns ((List.range N).map fun i => .v (v1 (x i))) = .ok [curve N x] := by
  unfold plotColumns
  rw [stackRows_scalar hN, ok_bind]
  dsimp only
  rw [(C93_drawn one_pos _).2, if_neg (by norm_num)]
  have hl : ((List.range N).map fun i => Arr.v (v1 (x i))).length = N := by simp
  have ha : ∀ M : Matrix (Fin 1) (Fin ((List.range N).map fun i => Arr.v (v1 (x i))).length) ℝ, (List.ofFn fun t => [avg M t]) =
      List.ofFn fun t => [M 0 t] := fun M => by
    congr 1
    funext t
    simp [avg]
  rw [ha, curve, times]
  simp only [transpose_apply, of_apply]
  rw [ofFn_scalar hl fun t => [x t]]
  simp

private theorem states_scores {gs : List Gaussian} {est : ℕ → ℝ × ℝ} {x : ℕ → ℝ} (hN : 0 < N) (hlen : gs.length = N)
    (hg : ∀ i, i < N → ∃ g, gs[i]? = some g ∧ Mom1 env g false (est i).1 (est i).2 ∧ 0 < (est i).2) :
    Metrics.rmse env gs ((List.range N).map fun i => .v (v1 (x i))) = .ok (scores N est x).1 ∧
      Metrics.nll env gs ((List.range N).map fun i => .v (v1 (x i))) = .ok (scores N est x).2 := by
  set h : Heap := ⟨fun r => { Node.init 1 0 with marginal := gs.getD r (sG 0 1) }, N⟩ with hh
  have hst : (List.range' 0 N).map (fun r => (h.get r).marginal) = gs := by
    refine List.ext_getElem (by simp [hlen]) fun i h1 h2 => ?_
    simp [hh, h2]
  have := nodeMetrics_scalar (env := env) (s := 0) (h := h) (est := est) (x := x) hN fun i hi => by
    obtain ⟨g, e1, e2, e3⟩ := hg i hi
    refine ⟨false, ?_, e3⟩
    have : (h.get (0 + i)).marginal = g := by simp [hh, e1]
    rw [this]
    exact e2
  unfold Metrics.nodeMetrics at this
  dsimp only at this
  rw [hst] at this
  cases hr : Metrics.rmse env gs ((List.range N).map fun i => .v (v1 (x i))) with
  | error e => rw [hr] at this; cases this
  | ok r =>
    cases hn : Metrics.nll env gs ((List.range N).map fun i => .v (v1 (x i))) with
    | error e => rw [hr, hn] at this; cases this
    | ok q =>
      rw [hr, hn] at this
      have h' : (r, q) = scores N est x := Except.ok.inj this
      rw [← h']
      exact ⟨rfl, rfl⟩

private theorem states_means {gs : List Gaussian} {est : ℕ → ℝ × ℝ} (hlen : gs.length = N)
    (hg : ∀ i, i < N → ∃ g, gs[i]? = some g ∧ Mom1 env g false (est i).1 (est i).2) :
    gs.mapM (Plot.meanOf env) = .ok ((List.range N).map fun i => Arr.v (v1 (est i).1)) := by
  have : gs.mapM (Plot.meanOf env) = .ok ((List.range gs.length).map fun i => Arr.v (v1 (est i).1)) := mapM_index fun i g e => by
    have hi : i < N := by rw [← hlen]; exact (List.getElem?_eq_some_iff.1 e).1
    obtain ⟨g', e1, e2⟩ := hg i hi
    rw [e, Option.some.injEq] at e1
    subst e1
    unfold Plot.meanOf
    rw [e2.1, ok_bind]
    rfl
  rw [this, hlen]

private theorem node_band {nodes : List Node} {row : Bool} {n r q : ℕ} {m : ℕ → Fin (n + 1) → ℝ}
    {C : ℕ → Matrix (Fin (n + 1)) (Fin (n + 1)) ℝ} (hne : nodes ≠ [])
    (h : ∀ i x, nodes[i]? = some x → MarginalMoments env row x.marginal (m i) (C i)) (hC : ∀ i < nodes.length, 0 ≤ C i 0 0)
    (M : Matrix (Fin r) (Fin q) ℝ) (hr : r = nodes.length) :
    Plot.plotGaussianNode env nodes (some (.m M)) = .ok ([.line (times nodes.length) ((List.range nodes.length).map fun i => List.ofFn (m i)),
      .fill (times nodes.length) ((List.range nodes.length).map fun i => some (m i 0 - 1.96 * Real.sqrt (C i 0 0)))
        ((List.range nodes.length).map fun i => some (m i 0 + 1.96 * Real.sqrt (C i 0 0)))] ++
      [.line (times nodes.length) (List.ofFn fun i => List.ofFn (M i))]) := by
  subst hr
  exact (C92_node_band hne h hC).2.2.1 M

private theorem picture_scalar {h : Heap} {est : ℕ → ℝ × ℝ} (hN : 0 < N) (x : ℕ → ℝ)
    (hn : ∀ i, i < N → Mom1 env (h.get (s + i)).marginal true (est i).1 (est i).2 ∧ 0 < (est i).2) :
    picture env (List.range' s N) ((List.range N).map fun i => .v (v1 (x i))) h = (.ok (bandPicture N est x), h) := by
  have hl : ((List.range' s N).map h.get).length = N := by simp
  have hb := node_band (env := env) (nodes := (List.range' s N).map h.get) (row := true) (n := 0) (m := fun i => v1 (est i).1)
    (C := fun i => m1 (est i).2) (by intro h0; rw [h0] at hl; simp at hl; omega) (fun i y hy => by
      have hi : i < N := by
        have := (List.getElem?_eq_some_iff.1 hy).1
        simpa using this
      have : y = h.get (s + i) := by simpa [hi] using hy.symm
      rw [this]
      refine ⟨(hn i hi).1.1, (hn i hi).1.2⟩) (fun i hi => by
      rw [hl] at hi
      simpa using (hn i hi).2.le)
    (Matrix.of fun (t : Fin ((List.range N).map fun i => Arr.v (v1 (x i))).length) (_ : Fin 1) => x t) (by simp)
  unfold picture
  rw [PyM.bind_ok (show PyM.get h = (.ok h, h) from rfl), PyM.lift_bind_eq (stackRows_scalar hN x)]
  unfold PyM.lift
  rw [hb, hl]
  refine Prod.ext (congrArg Except.ok ?_) rfl
  dsimp only [bandPicture, curve, List.cons_append, List.nil_append]
  have e1 : ∀ a : ℝ, List.ofFn (v1 a) = [a] := fun a => by simp [v1]
  have e2 : (List.ofFn fun i : Fin ((List.range N).map fun i => Arr.v (v1 (x i))).length => List.ofFn
      ((Matrix.of fun (t : Fin ((List.range N).map fun i => Arr.v (v1 (x i))).length) (_ : Fin 1) => x t) i)) = (List.range N).map fun i => [x i] := by
    rw [← ofFn_scalar (l := ((List.range N).map fun i => Arr.v (v1 (x i))).length) (by simp) fun i => [x i]]
    congr 1
  rw [e2]
  simp only [e1, v1_apply, m1_apply]

/-! ## Passes -/

private theorem steps_replicate (V : ℕ → Vals) (n : ℕ) :
    c.steps N (List.replicate n (passCalls N)).flatten V = (c.steps N (passCalls N))^[n] V := by
  induction n generalizing V with
  | zero => rfl
  | succ n ih =>
    rw [List.replicate_succ, List.flatten_cons, Function.iterate_succ_apply, ← ih]
    exact List.foldl_append

/-- Means and variances of marginals. -/
private noncomputable def reads (V : ℕ → Vals) (i : ℕ) : ℝ × ℝ := ((V i).M.mean, (V i).M.var)

private theorem metrics_sim (hm : Models env e sys ys N c) {h0 h : Heap} {V : ℕ → Vals} (hs : Sim env e sys ys N s h0 h V) (x : ℕ → ℝ) :
    metrics env (List.range' s N) ((List.range N).map fun i => .v (v1 (x i))) h = (.ok (scores N (reads V) x), h) := by
  unfold metrics
  rw [PyM.bind_ok (show PyM.get h = (.ok h, h) from rfl)]
  unfold PyM.lift
  rw [nodeMetrics_scalar (est := reads V) (by have := hm.two; omega) fun i hi => ⟨_, (hs.isNode hm hi).M.mom, Site.var_pos _⟩]

private theorem mom_true {g : Gaussian} {a : Site} (h : Is env g a) (hsh : a.sh = true) (hp : eps ≤ a.p) : Mom1 env g true a.mean a.var := by
  have h' := h.mom
  rwa [(Site.read a hp).2.2, hsh] at h'

/-- The loop of the damped iterations. -/
private theorem loop_run (hm : Models env e sys ys N c) (hr : c.Regular) (x : ℕ → ℝ) (n : ℕ) : ∀ (h : Heap) (V : ℕ → Vals),
    Sim env e sys ys N s h h V → s + N ≤ h.size →
    ∃ h', loop env (List.range' s N) ((List.range N).map fun i => .v (v1 (x i))) n h =
        (.ok ((List.range n).map fun k => (List.range' (h.size + k * N) N, scores N (reads ((c.steps N (passCalls N))^[k + 1] V)) x)), h') ∧
      (∀ q, s + N ≤ q → q < h.size → h'.get q = h.get q) ∧
      ∀ k, k < n → ∀ i, i < N → Is env (h'.get (h.size + k * N + i)).marginal ((c.steps N (passCalls N))^[k + 1] V i).M := by
  induction n with
  | zero => exact fun h V hs hsz => ⟨h, rfl, fun _ _ _ => rfl, fun k hk => absurd hk (Nat.not_lt_zero k)⟩
  | succ n ih =>
    intro h V hs hsz
    obtain ⟨h1, e1, s1⟩ := hs.pass hm hr
    obtain ⟨h2, e2, z2, f2, g2⟩ := C109_deepcopy s N h1
    have hz1 : h1.size = h.size := s1.size
    have s2 : Sim env e sys ys N s h2 h2 (c.steps N (passCalls N) V) := ⟨rfl, fun _ _ => rfl, fun i y hy => by
      have hi : i < N := hm.length ▸ (List.getElem?_eq_some_iff.1 hy).1
      have hlt : s + i < h1.size := by rw [hz1]; exact lt_of_lt_of_le (Nat.add_lt_add_left hi s) hsz
      rw [f2 (s + i) hlt]
      exact s1.node i y hy⟩
    obtain ⟨h', e3, f3, r3⟩ := ih h2 (c.steps N (passCalls N) V) s2 (by omega)
    refine ⟨h', ?_, fun q q1 q2 => ?_, fun k hk i hi => ?_⟩
    · rw [loop, PyM.bind_ok e1, PyM.bind_ok e2, PyM.bind_ok (metrics_sim hm s2 x), PyM.bind_ok e3, hz1, z2, hz1]
      refine Prod.ext (congrArg Except.ok ?_) rfl
      rw [List.range_succ_eq_map, List.map_cons, List.map_map]
      refine List.cons_eq_cons.2 ⟨by simp, List.map_congr_left fun k _ => ?_⟩
      have : h.size + N + k * N = h.size + (k + 1) * N := by ring
      simp only [Function.comp, this, Nat.succ_eq_add_one]
      rw [← Function.iterate_succ_apply (c.steps N (passCalls N)) (k + 1) V]
    · rw [f3 q q1 (by omega), f2 q (by omega)]
      exact s1.frame q (.inr q1)
    · rcases k with _ | k
      · rw [Nat.zero_mul, Nat.add_zero, f3 _ (by omega) (by omega), ← hz1]
        obtain ⟨nd, a1, a2, -⟩ := g2 i hi
        rw [a1, a2]
        exact (s1.isNode hm hi).M
      · have := r3 k (by omega) i hi
        rw [z2, hz1] at this
        have e : h.size + (k + 1) * N + i = h.size + N + k * N + i := by ring
        rw [e, Function.iterate_succ_apply]
        exact this

private theorem sim_start (hm : Models env e sys ys N c) (h : Heap) :
    ∃ h1, graph env N 1 e sys ys h = (.ok (List.range' h.size N), h1) ∧ Sim env e sys ys N h.size h1 h1 (fun _ => Chain.start) ∧
      h.size + N ≤ h1.size := by
  obtain ⟨h1, e1, s1⟩ := Sim.start hm h
  have hne : ys ≠ [] := by
    rintro rfl
    have := hm.length
    have := hm.two
    simp only [List.length_nil] at *
    omega
  obtain ⟨h2, e2, z2, -⟩ := graph_run (env := env) N 1 hm.two e sys ys hne h
  have : h1 = h2 := by rw [e1] at e2; exact congrArg Prod.snd e2
  exact ⟨h1, e1, s1, by rw [this, z2]⟩

/-! ## The notebook -/

private theorem obs_scalar (y : ℕ → ℝ) (i : ℕ) (a : Arr) (h : ((List.range N).map fun i => Arr.v (v1 (y i)))[i]? = some a) :
    IsVec a.squeeze (v1 (y i)) := by
  simp only [List.getElem?_map, Option.map_eq_some_iff] at h
  obtain ⟨j, hj, rfl⟩ := h
  obtain ⟨hj1, rfl⟩ := List.getElem?_eq_some_iff.1 hj
  rw [List.getElem_range]
  exact .inr rfl

private theorem growth_regular {power : ℝ} (hp : 0 < power) (damping : ℝ) (y : ℕ → ℝ) : (growthChain power damping y).Regular :=
  unscented_regular params_trans params_meas hp one_pos (by norm_num) (by norm_num) _ _ _

/-- **C109.** The cells on filter and smoother draw the means of both and the true states, and print the scores of the unscented Kalman
filter and smoother of the growth model. -/
theorem C109_classic {u u' : UT} (hu : UT.init 1 1 2 3 = .ok u) (hu' : UT.init 1 1 2 2 = .ok u') (hsys : UNGM.init = .ok sys) (hN : 0 < N)
    (x y : ℕ → ℝ) :
    classic env (u.transform env) (u'.transform env) sys ((List.range N).map fun i => .v (v1 (x i))) ((List.range N).map fun i => .v (v1 (y i))) =
      .ok { lines := [curve N fun i => ((growthChain 1 1 y).filtered 0 i).1, curve N fun i => ((growthChain 1 1 y).smoothed 0 (N - 1) i).1,
              curve N x]
            filter := scores N ((growthChain 1 1 y).filtered 0) x
            smoother := scores N ((growthChain 1 1 y).smoothed 0 (N - 1)) x } := by
  have hr := growth_regular one_pos 1 y
  have hk : ModelsKFS env (KFS.init (u.transform env) sys (some (u'.transform env))) ((List.range N).map fun i => .v (v1 (y i))) N
      (growthChain 1 1 y) := by
    rw [ungm_eq hsys]
    exact unscented_modelsKFS (P := ⟨1, 2, 3⟩) (P' := ⟨1, 2, 2⟩) hu hu' params_trans params_meas (fun i => ungm_f i none)
      (fun i => ungm_h (some (i * 1)) none) rfl rfl (mom1_sG _ _) (by simp) (obs_scalar y)
  obtain ⟨fs, rs, a1, a2, a3, a4, a5, a6⟩ := C40_kalman hk hr hN
  obtain ⟨b1, b2⟩ := states_scores (env := env) (gs := fs) (est := (growthChain 1 1 y).filtered 0) (x := x) hN a3 fun i hi => by
    obtain ⟨g, g1, g2⟩ := a5 i hi
    exact ⟨g, g1, g2, Chain.filtered_pos hr le_rfl i⟩
  obtain ⟨c1, c2⟩ := states_scores (env := env) (gs := rs) (est := (growthChain 1 1 y).smoothed 0 (N - 1)) (x := x) hN a4 fun i hi => by
    obtain ⟨g, g1, g2⟩ := a6 i hi
    exact ⟨g, g1, g2, (Chain.smoothed_pos hr le_rfl (by omega)).1⟩
  unfold classic
  dsimp only
  rw [a1, ok_bind, a2, ok_bind, states_means a3 a5, ok_bind, states_means a4 a6, ok_bind, plotColumns_scalar hN, ok_bind,
    plotColumns_scalar hN, ok_bind, plotColumns_scalar hN, ok_bind, b1, ok_bind, b2, ok_bind, c1, ok_bind, c2, ok_bind]
  rfl

private theorem iterate_sim (hm : Models env e sys ys N c) (hr : c.Regular)
    (hαγ : c.α < 1 ∧ 0 < c.γ ∧ c.γ ≤ 1 ∨ c.α = 1 ∧ c.γ = 1) {h0 h : Heap} {k : ℕ}
    (hs : Sim env e sys ys N s h0 h ((c.steps N (passCalls N))^[k] fun _ => Chain.start)) (n : ℕ) (x : ℕ → ℝ) :
    ∃ h', iterate env (List.range' s N) ((List.range N).map fun i => .v (v1 (x i))) (n + 1) h =
        (.ok (bandPicture N (c.estimates N (k + n + 1)) x, scores N (c.estimates N (k + n + 1)) x), h') ∧
      Sim env e sys ys N s h0 h' ((c.steps N (passCalls N))^[k + n + 1] fun _ => Chain.start) := by
  have hN : 0 < N := by have := hm.two; omega
  obtain ⟨h', e1, s1⟩ := Sim.passes hm hr (n + 1) hs
  rw [steps_replicate, ← Function.iterate_add_apply, show n + 1 + k = k + n + 1 by ring] at s1
  refine ⟨h', ?_, s1⟩
  unfold iterate
  rw [PyM.bind_ok e1, PyM.bind_ok (picture_scalar (est := c.estimates N (k + n + 1)) hN x fun i hi =>
    ⟨mom_true (s1.isNode hm hi).M (sh_passes hi _ (k + n)) ((Chain.passes_tidy hr hαγ hN (k + n + 1) i).le hr.α), Site.var_pos _⟩),
    PyM.bind_ok (metrics_sim hm s1 x)]
  rfl

private theorem results_sim (x : ℕ → ℝ) {h : Heap} {all : List (List Ref × ℝ × ℝ)} {est : ℕ → ℕ → ℝ × ℝ} (hN : 0 < N) (iters : List ℕ)
    (hk : ∀ k ∈ iters, ∃ r, all[k]? = some (List.range' r N, scores N (est (k + 1)) x) ∧
      ∀ i, i < N → Mom1 env (h.get (r + i)).marginal true (est (k + 1) i).1 (est (k + 1) i).2 ∧ 0 < (est (k + 1) i).2) :
    results env ((List.range N).map fun i => .v (v1 (x i))) all iters h =
      (.ok (iters.map fun k => (bandPicture N (est (k + 1)) x, k + 1, scores N (est (k + 1)) x)), h) := by
  induction iters with
  | nil => rfl
  | cons k iters ih =>
    obtain ⟨r, e1, e2⟩ := hk k (by simp)
    unfold results
    rw [e1]
    dsimp only
    rw [PyM.bind_ok (picture_scalar hN x e2), PyM.bind_ok (ih fun k hk' => hk k (by simp [hk']))]
    rfl

/-- Scores depend on the first `N` estimates only. -/
private theorem scores_congr {a b : ℕ → ℝ × ℝ} (h : ∀ i, i < N → a i = b i) (x : ℕ → ℝ) : scores N a x = scores N b x := by
  unfold scores
  have : ∀ f : ℝ × ℝ → ℕ → ℝ, ∑ i ∈ Finset.range N, f (a i) i = ∑ i ∈ Finset.range N, f (b i) i := fun f =>
    Finset.sum_congr rfl fun i hi => by rw [h i (Finset.mem_range.1 hi)]
  rw [this fun p i => (p.1 - x i) ^ 2, this fun p i => (Real.log (2 * Real.pi) + Real.log p.2 + (x i - p.1) ^ 2 / p.2) / 2]

private theorem band_congr {a b : ℕ → ℝ × ℝ} (h : ∀ i, i < N → a i = b i) (x : ℕ → ℝ) : bandPicture N a x = bandPicture N b x := by
  unfold bandPicture curve
  have : ∀ {α : Type} (f : ℝ × ℝ → α), (List.range N).map (fun i => f (a i)) = (List.range N).map fun i => f (b i) := fun f =>
    List.map_congr_left fun i hi => by rw [h i (List.mem_range.1 hi)]
  rw [this fun p => [p.1], this fun p => some (p.1 - 1.96 * Real.sqrt p.2), this fun p => some (p.1 + 1.96 * Real.sqrt p.2)]

/-- The estimates after one pass with power and damping one are those of the smoother with the factor of precision `10⁻¹⁰`. -/
private theorem first_estimates (hr : c.Regular) (hα : c.α = 1) (hγ : c.γ = 1) {i : ℕ} (hi : i < N) :
    c.estimates N 1 i = c.smoothed (1 / 10 ^ 10) (N - 1) i := by
  obtain ⟨n, rfl⟩ : ∃ n, N = n + 1 := ⟨N - 1, by omega⟩
  have hrd := ofMoments_read true (c.smoothed eps n i).1 (Chain.smoothed_pos hr eps_pos.le (n := n) (i := i) (by omega)).1
    (Chain.smoothed_prec hr eps_pos.le (n := n) (i := i) (by omega))
  simp only [Chain.estimates, Function.iterate_one]
  rw [Chain.first_pass hr hα hγ]
  dsimp only
  rw [if_pos hi, Chain.smoothedVals_M c (by omega), hrd.1, hrd.2.1]
  rfl

/-- **C109.** What the demonstration notebook shows, for any simulated data of at least two steps: it never fails.  The first pass of
expectation propagation has the scores and the picture of the smoother whose predictions are multiplied by the factor of precision
`10⁻¹⁰`, later iterations those of the recursion in plain numbers.  The pictures of the iterations 1, 10 and 50 are drawn after the loop from
copies of the nodes, and show the estimates at the time of the copy. -/
theorem C109_notebook (jac : Jac) (draw : Draw) (hcalm : ∀ A : Matrix (Fin 1) (Fin 1) ℝ, env.illPos A = false) (hN : 2 ≤ N) (x y : ℕ → ℝ)
    (h : Heap) :
    ∃ h', run env jac draw N (scalarData N x y) h =
      (.ok { truth := [curve N x]
             classic :=
               { lines := [curve N fun i => ((growthChain 1 1 y).filtered 0 i).1,
                   curve N fun i => ((growthChain 1 1 y).smoothed 0 (N - 1) i).1, curve N x]
                 filter := scores N ((growthChain 1 1 y).filtered 0) x
                 smoother := scores N ((growthChain 1 1 y).smoothed 0 (N - 1)) x }
             first := (bandPicture N ((growthChain 1 1 y).smoothed (1 / 10 ^ 10) (N - 1)) x,
               scores N ((growthChain 1 1 y).smoothed (1 / 10 ^ 10) (N - 1)) x)
             tenth := (bandPicture N ((growthChain 1 1 y).estimates N 10) x, scores N ((growthChain 1 1 y).estimates N 10) x)
             damped := [.line (List.range 50) ((List.range 50).map fun k => [(scores N ((growthChain 0.8 0.8 y).estimates N (k + 1)) x).1]),
               .line (List.range 50) ((List.range 50).map fun k => [(scores N ((growthChain 0.8 0.8 y).estimates N (k + 1)) x).2])]
             chosen := [0, 9, 49].map fun k => (bandPicture N ((growthChain 0.8 0.8 y).estimates N (k + 1)) x, k + 1,
               scores N ((growthChain 0.8 0.8 y).estimates N (k + 1)) x) }, h') := by
  have hN0 : 0 < N := by omega
  obtain ⟨u, hu⟩ := init_ok params_trans
  obtain ⟨u', hu'⟩ := init_ok params_meas
  obtain ⟨sys, hsys⟩ : ∃ sys, UNGM.init = .ok sys := ⟨_, rfl⟩
  have hu1 : UT.init 1 1 2 3 = .ok u := hu
  have hu2 : UT.init 1 1 2 2 = .ok u' := hu'
  have hsel : selectTransform "UT" 1 50000 = .ok (.ut u, .ut u') := by
    unfold selectTransform
    rw [if_pos (by decide), hu1, hu2]
    rfl
  have hX : (scalarData N x y).map Prod.fst = (List.range N).map fun i => Arr.v (v1 (x i)) := by
    rw [scalarData, List.map_map]; rfl
  have hY : (scalarData N x y).map Prod.snd = (List.range N).map fun i => Arr.v (v1 (y i)) := by
    rw [scalarData, List.map_map]; rfl
  have hm : ∀ power damping : ℝ, Models env ⟨u.transform env, u'.transform env, some sys.Q, some sys.R, power, damping⟩ sys
      ((List.range N).map fun i => .v (v1 (y i))) N (growthChain power damping y) := fun power damping =>
    ungm_models hcalm hu hu' params_trans params_meas hsys hN (by simp) (obs_scalar y)
  have hr1 := growth_regular one_pos 1 y
  have hr2 := growth_regular (show (0 : ℝ) < 0.8 by norm_num) 0.8 y
  have hαγ : (growthChain 0.8 0.8 y).α < 1 ∧ 0 < (growthChain 0.8 0.8 y).γ ∧ (growthChain 0.8 0.8 y).γ ≤ 1 ∨
      (growthChain 0.8 0.8 y).α = 1 ∧ (growthChain 0.8 0.8 y).γ = 1 := by
    left
    change (0.8 : ℝ) < 1 ∧ (0 : ℝ) < 0.8 ∧ (0.8 : ℝ) ≤ 1
    norm_num
  obtain ⟨h1, e1, s1⟩ := Sim.start (hm 1 1) h
  obtain ⟨h2, e2, s2⟩ := iterate_sim (k := 0) (hm 1 1) hr1 (.inr ⟨rfl, rfl⟩) s1 0 x
  obtain ⟨h3, e3, -⟩ := iterate_sim (hm 1 1) hr1 (.inr ⟨rfl, rfl⟩) s2 8 x
  obtain ⟨h4, e4, s4, z4⟩ := sim_start (hm 0.8 0.8) h3
  obtain ⟨h5, e5, -, r5⟩ := loop_run (hm 0.8 0.8) hr2 x 50 h4 _ s4 z4
  have hre : ∀ k : ℕ, reads (((growthChain 0.8 0.8 y).steps N (passCalls N))^[k + 1] fun _ => Chain.start) =
      (growthChain 0.8 0.8 y).estimates N (k + 1) := fun k => rfl
  simp only [hre] at e5
  have e6 := results_sim (env := env) (N := N) x (h := h5) (est := (growthChain 0.8 0.8 y).estimates N) (all := (List.range 50).map fun k =>
    (List.range' (h4.size + k * N) N, scores N ((growthChain 0.8 0.8 y).estimates N (k + 1)) x)) hN0 [0, 9, 49] fun k hk => by
      have hk50 : k < 50 := by
        simp only [List.mem_cons, List.not_mem_nil, or_false] at hk
        omega
      refine ⟨h4.size + k * N, by simp [hk50], fun i hi => ⟨?_, Site.var_pos _⟩⟩
      exact mom_true (r5 k hk50 i hi) (sh_passes hi _ k) ((Chain.passes_tidy hr2 hαγ hN0 (k + 1) i).le hr2.α)
  refine ⟨h5, ?_⟩
  unfold run
  rw [PyM.lift_bind_eq hsys]
  dsimp only
  rw [hX, hY, PyM.lift_bind_eq (plotColumns_scalar hN0 x), PyM.lift_bind_eq hsel]
  dsimp only [TransformObj.call]
  have hg : ∀ power damping : ℝ, buildGraph env (u.transform env) (u'.transform env) sys N ((List.range N).map fun i => .v (v1 (y i))) power damping =
      graph env N 1 ⟨u.transform env, u'.transform env, some sys.Q, some sys.R, power, damping⟩ sys
        ((List.range N).map fun i => .v (v1 (y i))) := fun _ _ => rfl
  rw [PyM.lift_bind_eq (C109_classic hu1 hu2 hsys hN0 x y), hg, hg, PyM.bind_ok e1, PyM.bind_ok e2, PyM.bind_ok e3, PyM.bind_ok e4, PyM.bind_ok e5,
    PyM.bind_ok e6]
  refine Prod.ext (congrArg Except.ok ?_) rfl
  rw [scores_congr (fun i hi => first_estimates hr1 rfl rfl hi) x, band_congr (fun i hi => first_estimates hr1 rfl rfl hi) x]
  simp only [curves, List.map_map, List.length_map, List.length_range]
  rfl

/-- **C109.** "The results are identical as expected": the scores of the first pass and of the smoother are one function of the precision of
the factor, at `10⁻¹⁰` and at zero, and this function is continuous from the right at zero. -/
theorem C109_same_scores (hN : 0 < N) (x y : ℕ → ℝ) :
    Tendsto (fun ε => scores N ((growthChain 1 1 y).smoothed ε (N - 1)) x) (𝓝[≥] 0)
      (𝓝 (scores N ((growthChain 1 1 y).smoothed 0 (N - 1)) x)) := by
  have hr := growth_regular one_pos 1 y
  have h : ∀ i ∈ Finset.range N, Tendsto (fun ε => (growthChain 1 1 y).smoothed ε (N - 1) i) (𝓝[≥] 0)
      (𝓝 ((growthChain 1 1 y).smoothed 0 (N - 1) i)) := fun i hi => by
    have hi := Finset.mem_range.1 hi
    refine C40_gap_vanishes hr (fun i => unscented_continuous _ _ _ ?_) (unscented_continuous _ _ _ (by fun_prop)) (by omega)
    unfold growth
    have : ∀ x : ℝ, 1 + x ^ 2 ≠ 0 := fun x => by positivity
    fun_prop (disch := assumption)
  have h1 : ∀ i ∈ Finset.range N, Tendsto (fun ε => ((growthChain 1 1 y).smoothed ε (N - 1) i).1) (𝓝[≥] 0)
      (𝓝 ((growthChain 1 1 y).smoothed 0 (N - 1) i).1) := fun i hi => (continuous_fst.tendsto _).comp (h i hi)
  have h2 : ∀ i ∈ Finset.range N, Tendsto (fun ε => ((growthChain 1 1 y).smoothed ε (N - 1) i).2) (𝓝[≥] 0)
      (𝓝 ((growthChain 1 1 y).smoothed 0 (N - 1) i).2) := fun i hi => (continuous_snd.tendsto _).comp (h i hi)
  have hp : ∀ i ∈ Finset.range N, ((growthChain 1 1 y).smoothed 0 (N - 1) i).2 ≠ 0 := fun i hi =>
    (Chain.smoothed_pos hr le_rfl (by have := Finset.mem_range.1 hi; omega)).1.ne'
  unfold scores
  refine Tendsto.prodMk_nhds ?_ ?_
  · exact (Real.continuous_sqrt.tendsto _).comp ((tendsto_finsetSum _ fun i hi => ((h1 i hi).sub_const _).pow 2).div_const _)
  · exact (tendsto_finsetSum _ fun i hi => (((((h2 i hi).log (hp i hi)).const_add _)).add
      (((tendsto_const_nhds.sub (h1 i hi)).pow 2).div (h2 i hi) (hp i hi))).div_const _).div_const _

/-- **C109.** Pictures of chosen iterations come in the order asked for, each under its number and with its own scores; an iteration that
was not run is never left out silently. -/
theorem C109_chosen (X : List Arr) (all : List (List Ref × ℝ × ℝ)) (iters : List ℕ) {h h' : Heap} {ps : List (List Plot.Draw × ℕ × ℝ × ℝ)}
    (hr : results env X all iters h = (.ok ps, h')) :
    (∀ k ∈ iters, k < all.length) ∧ ps.map (fun p => (p.2.1, some p.2.2)) = iters.map fun k => (k + 1, all[k]?.map Prod.snd) := by
  induction iters generalizing h ps with
  | nil =>
    obtain rfl : [] = ps := Except.ok.inj (Prod.mk.inj hr).1
    simp
  | cons k iters ih =>
    unfold results at hr
    rcases hk : all[k]? with _ | ⟨nodes, m⟩
    · rw [hk] at hr
      exact absurd (Prod.mk.inj hr).1 (by simp)
    · rw [hk] at hr
      obtain ⟨p, h1, -, hr⟩ := PyM.bind_ok_inv hr
      obtain ⟨rest, h2, e2, hr⟩ := PyM.bind_ok_inv hr
      obtain rfl : (p, k + 1, m) :: rest = ps := Except.ok.inj (Prod.mk.inj hr).1
      obtain rfl : h2 = h' := (Prod.mk.inj hr).2
      obtain ⟨i1, i2⟩ := ih e2
      refine ⟨fun j hj => ?_, ?_⟩
      · rcases List.mem_cons.1 hj with rfl | hj
        · exact (List.getElem?_eq_some_iff.1 hk).1
        · exact i1 j hj
      · simp only [List.map_cons, i2, hk, Option.map_some]

/-- **C109.** Asking first for an iteration that was not run raises `IndexError`. -/
theorem C109_not_run (X : List Arr) (all : List (List Ref × ℝ × ℝ)) (k : ℕ) (iters : List ℕ) (h : Heap) (hk : all.length ≤ k) :
    results env X all (k :: iters) h = (.error .index, h) := by
  unfold results
  rw [List.getElem?_eq_none hk]
  rfl

/-- The demonstration as committed, with a hundred steps. -/
example (draw : Draw) (x y : ℕ → ℝ) (h : Heap) : ∃ out h', run calmEnv exactJac draw 100 (scalarData 100 x y) h = (.ok out, h') ∧
    out.chosen.map (fun c => c.2.1) = [1, 10, 50] := by
  obtain ⟨h', e⟩ := C109_notebook (env := calmEnv) exactJac draw (fun _ => rfl) (by norm_num : 2 ≤ 100) x y h
  exact ⟨_, h', e, rfl⟩

/-- The copies of two linked nodes are linked with each other. -/
example (h : Heap) (h0 : (h.get 3).next = some 4) (h1 : (h.get 4).prev = some 3) : ∃ h', deepcopy [3, 4] h = (.ok [h.size, h.size + 1], h') ∧
    (h'.get h.size).next = some (h.size + 1) ∧ (h'.get (h.size + 1)).prev = some h.size ∧ (h'.get h.size).marginal = (h.get 3).marginal := by
  obtain ⟨h', e, -, -, g⟩ := C109_deepcopy 3 2 h
  obtain ⟨n0, a1, a2, -, -, -, -, a3, -⟩ := g 0 (by norm_num)
  obtain ⟨n1, b1, -, -, -, -, -, -, b3, -⟩ := g 1 (by norm_num)
  refine ⟨h', e, ?_, ?_, ?_⟩
  · rw [← Nat.add_zero h.size, a1]; exact a3 1 (by norm_num) h0
  · rw [b1]; exact b3 0 (by norm_num) h1
  · rw [← Nat.add_zero h.size, a1]; exact a2

/-- One pass over one node. -/
example (h : Heap) (m v x : ℝ) (hv : 0 < v) (hm : Mom1 calmEnv (h.get 3).marginal true m v) : ∃ ps,
    results calmEnv [.v (v1 x)] [([3], scores 1 (fun _ => (m, v)) fun _ => x)] [0] h = (.ok ps, h) ∧
      ps.map (fun p => (p.2.1, some p.2.2)) = [(1, some (scores 1 (fun _ => (m, v)) fun _ => x))] := by
  have e := results_sim (env := calmEnv) (N := 1) (fun _ => x) (h := h) (est := fun _ _ => (m, v))
    (all := [([3], scores 1 (fun _ => (m, v)) fun _ => x)]) one_pos [0] fun k hk => by
      obtain rfl : k = 0 := by simpa using hk
      exact ⟨3, rfl, fun i hi => by obtain rfl : i = 0 := by omega
                                    exact ⟨hm, hv⟩⟩
  exact ⟨_, e, (C109_chosen _ _ _ e).2⟩

/-- Ten passes do not have a fiftieth. -/
example (X : List Arr) (all : List (List Ref × ℝ × ℝ)) (h : Heap) (h10 : all.length = 10) : results calmEnv X all [49] h = (.error .index, h) :=
  C109_not_run X all 49 [] h (by omega)

end Demo

end Verif
