import Verif.Lemmas.ScalarEP
import Verif.Lemmas.ScalarPass
import Verif.Lemmas.ScalarKFS
import Verif.Lemmas.ScalarLimit
import Verif.Props.Nodes
import Verif.Model.Systems

/-!
# Expectation propagation on scalar states: no update fails (C66), the first pass is the Gaussian smoother (C40), linear measurements need
one pass (C43)
-/

namespace Verif

open Matrix Gaussian Node Site Filter Topology

variable {env : Env} {e : Estimator} {sys : Sys} {ys : List Arr} {N s : ℕ} {c : Chain}

/-! ## From the calls to the passes -/

theorem Sim.start (hm : Models env e sys ys N c) (h : Heap) :
    ∃ h1, graph env N 1 e sys ys h = (.ok (List.range' h.size N), h1) ∧ Sim env e sys ys N h.size h1 h1 (fun _ => Chain.start) := by
  have hne : ys ≠ [] := by
    intro h0
    have := hm.length
    have := hm.two
    rw [h0] at *
    simp only [List.length_nil] at *
    omega
  obtain ⟨h1, e1, e2, e3, e4⟩ := graph_run (env := env) N 1 hm.two e sys ys hne h
  rw [List.take_of_length_le (by rw [List.length_range', hm.length])] at e1
  refine ⟨h1, e1, rfl, fun q _ => rfl, fun i y hy => ?_⟩
  have hi : i < N := by rw [← hm.length]; exact (List.getElem?_eq_some_iff.1 hy).1
  rw [e4 i y hi hy]
  exact ⟨rfl, .inr ⟨rfl, rfl⟩, asFactor_nG, asFactor_nG, asFactor_nG⟩

theorem Sim.isNode (hm : Models env e sys ys N c) {h0 h : Heap} {V : ℕ → Vals} (hs : Sim env e sys ys N s h0 h V) {i : ℕ} (hi : i < N) :
    IsNode env (h.get (s + i)) (V i) := by
  obtain ⟨y, hy⟩ := hm.get_obs hi
  have hn := hs.node i y hy
  refine ⟨hn.M.is hm.calm, ?_, ?_, ?_⟩
  · rw [hn.F]; exact is_nG hm.calm _
  · rw [hn.Y]; exact is_nG hm.calm _
  · rw [hn.B]; exact is_nG hm.calm _

theorem passCalls_lt {N : ℕ} : ∀ k ∈ passCalls N, k.2 < N := by
  intro k hk
  simp only [passCalls, List.mem_append, List.mem_flatMap, List.mem_range, List.mem_cons, List.not_mem_nil, or_false, List.mem_map,
    List.mem_reverse] at hk
  rcases hk with ⟨i, hi, rfl | rfl⟩ | ⟨i, hi, rfl⟩ <;> exact hi

theorem passCalls_map (N s : ℕ) : (passCalls N).map (fun k => (k.1, s + k.2)) =
    (List.range' s N).flatMap (fun r => [(Upd.fwd, r), (Upd.meas, r)]) ++ (List.range' s N).reverse.map fun r => (Upd.back, r) := by
  rw [List.range'_eq_map_range, passCalls, List.map_append, List.map_flatMap, List.flatMap_map, List.map_map, ← List.map_reverse,
    List.map_map]
  rfl

theorem Sim.pass (hm : Models env e sys ys N c) (hr : c.Regular) {h0 h : Heap} {V : ℕ → Vals} (hs : Sim env e sys ys N s h0 h V) :
    ∃ h', epFwdBack env (List.range' s N) h = (.ok (), h') ∧ Sim env e sys ys N s h0 h' (c.steps N (passCalls N) V) := by
  obtain ⟨h', -, x, s'⟩ := Sim.steps hm hr (passCalls N) passCalls_lt hs
  rw [passCalls_map] at x
  obtain ⟨x1, x2⟩ := executes_fun x (C39_pass_order (env := env) (List.range' s N) h)
  refine ⟨h', ?_, s'⟩
  rw [x1, x2]

/-- `n` passes. -/
theorem Sim.passes (hm : Models env e sys ys N c) (hr : c.Regular) {h0 : Heap} (n : ℕ) : ∀ {h : Heap} {V : ℕ → Vals},
    Sim env e sys ys N s h0 h V →
    ∃ h', PyM.forEach (List.range n) (fun _ => epFwdBack env (List.range' s N)) h = (.ok (), h') ∧
      Sim env e sys ys N s h0 h' (c.steps N (List.replicate n (passCalls N)).flatten V) := by
  suffices H : ∀ (l : List ℕ) {h : Heap} {V : ℕ → Vals}, Sim env e sys ys N s h0 h V →
      ∃ h', PyM.forEach l (fun _ => epFwdBack env (List.range' s N)) h = (.ok (), h') ∧
        Sim env e sys ys N s h0 h' (c.steps N (List.replicate l.length (passCalls N)).flatten V) by
    intro h V hs
    have := H (List.range n) hs
    rwa [List.length_range] at this
  intro l
  induction l with
  | nil => intro h V hs; exact ⟨h, rfl, hs⟩
  | cons x xs ih =>
    intro h V hs
    obtain ⟨h1, e1, s1⟩ := hs.pass hm hr
    obtain ⟨h2, e2, s2⟩ := ih s1
    refine ⟨h2, ?_, ?_⟩
    · rw [PyM.forEach, PyM.bind_ok e1]; exact e2
    · rw [List.length_cons, List.replicate_succ, List.flatten_cons, Chain.steps_append]; exact s2

/-! ## C66 -/

/-- **C66.** On a scalar state, with transforms that satisfy the Cauchy-Schwarz inequality, positive power and noise, no sequence of
updates of the nodes ever raises, none of them is discarded by the handlers, and the result is that of the recursion in plain numbers. -/
theorem C66_no_update_fails (hm : Models env e sys ys N c) (hr : c.Regular) (h : Heap) (calls : List (Upd × ℕ))
    (hk : ∀ k ∈ calls, k.2 < N) :
    ∃ h1 h2, graph env N 1 e sys ys h = (.ok (List.range' h.size N), h1) ∧
      Executes env (calls.map fun k => (k.1, h.size + k.2)) h1 (.ok ()) h2 ∧
      ∀ i, i < N → IsNode env (h2.get (h.size + i)) (c.steps N calls (fun _ => Chain.start) i) := by
  obtain ⟨h1, e1, s1⟩ := Sim.start hm h
  obtain ⟨h2, -, x2, s2⟩ := Sim.steps hm hr calls hk s1
  exact ⟨h1, h2, e1, x2, fun i hi => s2.isNode hm hi⟩

/-- **C66.** In particular any number of passes. -/
theorem C66_passes_succeed (hm : Models env e sys ys N c) (hr : c.Regular) (h : Heap) (n : ℕ) :
    ∃ h1 h2, graph env N 1 e sys ys h = (.ok (List.range' h.size N), h1) ∧
      PyM.forEach (List.range n) (fun _ => epFwdBack env (List.range' h.size N)) h1 = (.ok (), h2) ∧
      ∀ i, i < N → IsNode env (h2.get (h.size + i))
        (c.steps N (List.replicate n (passCalls N)).flatten (fun _ => Chain.start) i) := by
  obtain ⟨h1, e1, s1⟩ := Sim.start hm h
  obtain ⟨h2, e2, s2⟩ := Sim.passes hm hr n s1
  exact ⟨h1, h2, e1, e2, fun i hi => s2.isNode hm hi⟩

/-- The variance of every marginal stays positive, and at most `10¹⁰`. -/
theorem C66_variances_positive {g : Gaussian} {a : Site} (h : Is env g a) :
    ∃ v, g.cov env = .ok (some (.m (m1 v))) ∧ 0 < v ∧ v ≤ 10 ^ 10 :=
  ⟨a.var, h.mom.2, a.var_pos, a.var_le⟩

/-- The unscented transform with nonnegative centre weight satisfies the hypotheses. -/
theorem unscented_regular {P P' : UTParams} (hP : P.Good) (hP' : P'.Good) {α γ q r m0 p0 : ℝ} (hα : 0 < α) (hq : 0 < q) (hr : 0 < r)
    (hp : 0 < p0) (F : ℕ → ℝ → ℝ) (G : ℝ → ℝ) (y : ℕ → ℝ) : (unscentedChain P P' α γ q r m0 p0 F G y).Regular :=
  ⟨hα, hq, hr, hp, fun i => unscented_schwarz (F i) hP.spread hP.weight, unscented_schwarz G hP'.spread hP'.weight⟩

section unscented

variable {P P' : UTParams} {α γ q r m0 p0 : ℝ} {u u' : UT} {F : ℕ → ℝ → ℝ} {G : ℝ → ℝ} {y : ℕ → ℝ}

theorem unscented_models (hcalm : ∀ A : Matrix (Fin 1) (Fin 1) ℝ, env.illPos A = false)
    (hu : UT.init 1 P.a P.b P.k = .ok u) (hu' : UT.init 1 P'.a P'.b P'.k = .ok u') (hP : P.Good) (hP' : P'.Good)
    (hF : ∀ i : ℕ, OnColumns (fun x => sys.transition x (some (i * sys.dt)) (some 0)) (F i))
    (hG : OnColumns (fun x => sys.measurement x none none) G) (hQ : sys.Q = .m (m1 q)) (hR : sys.R = .m (m1 r))
    (h0 : Mom1 env sys.initState false m0 p0) (hN : 2 ≤ N) (hlen : ys.length = N)
    (hy : ∀ i a, ys[i]? = some a → IsVec a.squeeze (v1 (y i))) :
    Models env ⟨u.transform env, u'.transform env, some sys.Q, some sys.R, α, γ⟩ sys ys N
      (unscentedChain P P' α γ q r m0 p0 F G y) where
  calm := hcalm
  power := rfl
  damping := rfl
  Q := congrArg some hQ
  R := congrArg some hR
  prior := h0
  trans i _ := unscented_realises hu hP.spread (hF i)
  meas := unscented_realises hu' hP'.spread hG
  two := hN
  length := hlen
  obs := hy

theorem unscented_modelsKFS (hu : UT.init 1 P.a P.b P.k = .ok u) (hu' : UT.init 1 P'.a P'.b P'.k = .ok u') (hP : P.Good) (hP' : P'.Good)
    (hF : ∀ i : ℕ, OnColumns (fun x => sys.transition x (some (i * sys.dt)) none) (F i))
    (hG : ∀ i : ℕ, OnColumns (fun x => sys.measurement x (some (i * sys.dt)) none) G) (hQ : sys.Q = .m (m1 q)) (hR : sys.R = .m (m1 r))
    (h0 : Mom1 env sys.initState false m0 p0) (hlen : ys.length = N) (hy : ∀ i a, ys[i]? = some a → IsVec a.squeeze (v1 (y i))) :
    ModelsKFS env (KFS.init (u.transform env) sys (some (u'.transform env))) ys N (unscentedChain P P' α γ q r m0 p0 F G y) where
  Q := hQ
  R := hR
  prior := h0
  trans i _ := (unscented_realises hu hP.spread (hF i)).flat
  meas i _ := (unscented_realises hu' hP'.spread (hG i)).flat
  length := hlen
  obs := hy

end unscented

/-- The growth model in plain numbers. -/
noncomputable def growth (i : ℕ) (x : ℝ) : ℝ := 0.5 * x + 25 * x / (1 + x ^ 2) + 8 * Real.cos (1.2 * i)

theorem ungm_eq (h : UNGM.init = .ok sys) :
    sys = { transition := UNGM.f, measurement := UNGM.h, Q := .m (m1 1), R := .m (m1 10), initState := sG 0 5, dt := 1 } := by
  simp only [UNGM.init, Sys.make, GaussianNoise.init, and_self, if_true, Except.ok.injEq] at h
  rw [← h]
  have : (fun _ : Fin 1 => (0 : ℝ)) = v1 0 := v1_ext _
  simp [Arr.eye, m1_one, m1_smul, sG, this]

theorem ungm_f (i : ℕ) (u : Option ℝ) : OnColumns (fun x => UNGM.f x (some (i * 1)) u) (growth i) := by
  intro M X
  simp only [UNGM.f, Arr.map, mul_one]
  exact congrArg (fun z => Except.ok (Arr.m z)) (funext fun i => funext fun j => by rw [Subsingleton.elim j 0]; rfl)

theorem ungm_h (t u : Option ℝ) : OnColumns (fun x => UNGM.h x t u) (fun x => x ^ 2 / 20) := by
  intro M X
  simp only [UNGM.h, Arr.map]
  exact congrArg (fun z => Except.ok (Arr.m z)) (funext fun i => funext fun j => by rw [Subsingleton.elim j 0]; rfl)

theorem ungm_models {P P' : UTParams} {α γ : ℝ} {u u' : UT} {y : ℕ → ℝ} (hcalm : ∀ A : Matrix (Fin 1) (Fin 1) ℝ, env.illPos A = false)
    (hu : UT.init 1 P.a P.b P.k = .ok u) (hu' : UT.init 1 P'.a P'.b P'.k = .ok u') (hP : P.Good) (hP' : P'.Good)
    (hsys : UNGM.init = .ok sys) (hN : 2 ≤ N) (hlen : ys.length = N) (hy : ∀ i a, ys[i]? = some a → IsVec a.squeeze (v1 (y i))) :
    Models env ⟨u.transform env, u'.transform env, some sys.Q, some sys.R, α, γ⟩ sys ys N
      (unscentedChain P P' α γ 1 10 0 5 growth (fun x => x ^ 2 / 20) y) := by
  rw [ungm_eq hsys]
  exact unscented_models hcalm hu hu' hP hP' (fun i => ungm_f i (some 0)) (ungm_h none none) rfl rfl (mom1_sG _ _) hN hlen hy

/-- **C66.** For the growth model of the experiments, and unscented transforms with any parameters that give nonnegative centre weights,
expectation propagation with any positive power and any damping never fails, whatever the measurements are. -/
theorem C66_growth_model {P P' : UTParams} {α γ : ℝ} {u u' : UT} {y : ℕ → ℝ}
    (hcalm : ∀ A : Matrix (Fin 1) (Fin 1) ℝ, env.illPos A = false)
    (hu : UT.init 1 P.a P.b P.k = .ok u) (hu' : UT.init 1 P'.a P'.b P'.k = .ok u') (hP : P.Good) (hP' : P'.Good) (hα : 0 < α)
    (hsys : UNGM.init = .ok sys) (hN : 2 ≤ N) (hlen : ys.length = N) (hy : ∀ i a, ys[i]? = some a → IsVec a.squeeze (v1 (y i)))
    (h : Heap) (n : ℕ) :
    ∃ h1 h2, graph env N 1 ⟨u.transform env, u'.transform env, some sys.Q, some sys.R, α, γ⟩ sys ys h = (.ok (List.range' h.size N), h1) ∧
      PyM.forEach (List.range n) (fun _ => epFwdBack env (List.range' h.size N)) h1 = (.ok (), h2) ∧
      ∀ i, i < N → ∃ m v : ℝ, ∃ b, (h2.get (h.size + i)).marginal.mean env = .ok (some (num b m)) ∧
        (h2.get (h.size + i)).marginal.cov env = .ok (some (.m (m1 v))) ∧ 0 < v ∧ v ≤ 10 ^ 10 := by
  obtain ⟨h1, h2, e1, e2, e3⟩ := C66_passes_succeed (ungm_models (γ := γ) hcalm hu hu' hP hP' hsys hN hlen hy)
    (unscented_regular hP hP' hα one_pos (by norm_num) (by norm_num) _ _ _) h n
  refine ⟨h1, h2, e1, e2, fun i hi => ?_⟩
  have hM := (e3 i hi).M
  exact ⟨_, _, _, hM.mom.1, hM.mom.2, Site.var_pos _, Site.var_le _⟩

/-- The parameters of the experiments (`Experiments/EP_FullSweep.py:48-49`). -/
theorem params_trans : UTParams.Good ⟨1, 2, 3⟩ := ⟨by norm_num, by norm_num⟩
theorem params_meas : UTParams.Good ⟨1, 2, 2⟩ := ⟨by norm_num, by norm_num⟩

theorem init_ok {P : UTParams} (hP : P.Good) : ∃ u, UT.init 1 P.a P.b P.k = .ok u := by
  have h := hP.spread.ne'
  simp only [UT.init]
  rw [if_neg]
  · exact ⟨_, rfl⟩
  · intro h0
    apply h
    push_cast at h0
    linarith

/-- With the parameters of the experiments and two measurements. -/
example (y₀ y₁ : ℝ) (h : Heap) (n : ℕ) : ∃ e sys h1 h2, UNGM.init = .ok sys ∧ e.power = 0.8 ∧ e.damping = 0.9 ∧
    graph calmEnv 2 1 e sys [.v (v1 y₀), .s y₁] h = (.ok [h.size, h.size + 1], h1) ∧
    PyM.forEach (List.range n) (fun _ => epFwdBack calmEnv [h.size, h.size + 1]) h1 = (.ok (), h2) := by
  obtain ⟨u, hu⟩ := init_ok params_trans
  obtain ⟨u', hu'⟩ := init_ok params_meas
  obtain ⟨sys, hs⟩ : ∃ sys, UNGM.init = .ok sys := ⟨_, rfl⟩
  obtain ⟨h1, h2, e1, e2, -⟩ := C66_growth_model (env := calmEnv) (α := 0.8) (γ := 0.9) (N := 2) (ys := [.v (v1 y₀), .s y₁])
    (y := fun i => if i = 0 then y₀ else y₁) (fun _ => rfl) hu hu' params_trans params_meas (by norm_num) hs le_rfl rfl (by
      intro i a hi
      match i, hi with
      | 0, hi => simp only [List.getElem?_cons_zero, Option.some.injEq] at hi; rw [← hi]; exact .inr rfl
      | 1, hi => simp only [List.getElem?_cons_succ, List.getElem?_cons_zero, Option.some.injEq] at hi; rw [← hi]; exact isVec_s y₁) h n
  exact ⟨_, sys, h1, h2, hs, rfl, rfl, e1, e2⟩

/-! ## C40 -/

/-- **C40.** With power and damping one, the first pass leaves on node `i` the mean and the variance of the smoother whose every prediction
is multiplied by the initial marginal, of precision `10⁻¹⁰`. -/
theorem C40_first_pass (hm : Models env e sys ys N c) (hr : c.Regular) (hα : c.α = 1) (hγ : c.γ = 1) (h : Heap) :
    ∃ h1 h2, graph env N 1 e sys ys h = (.ok (List.range' h.size N), h1) ∧ epFwdBack env (List.range' h.size N) h1 = (.ok (), h2) ∧
      ∀ i, i < N → Mom1 env (h2.get (h.size + i)).marginal true (c.smoothed (1 / 10 ^ 10) (N - 1) i).1
        (c.smoothed (1 / 10 ^ 10) (N - 1) i).2 := by
  obtain ⟨h1, e1, s1⟩ := Sim.start hm h
  obtain ⟨h2, e2, s2⟩ := s1.pass hm hr
  refine ⟨h1, h2, e1, e2, fun i hi => ?_⟩
  obtain ⟨n, rfl⟩ : ∃ n, N = n + 1 := ⟨N - 1, by omega⟩
  have hM := (s2.isNode hm hi).M.mom
  rw [Chain.first_pass hr hα hγ] at hM
  dsimp only at hM
  rw [if_pos hi, Chain.smoothedVals_M c (by omega)] at hM
  have hrd := ofMoments_read true (c.smoothed eps n i).1 (Chain.smoothed_pos hr eps_pos.le (n := n) (i := i) (by omega)).1
    (Chain.smoothed_prec hr eps_pos.le (n := n) (i := i) (by omega))
  rw [hrd.1, hrd.2.1, hrd.2.2] at hM
  exact hM

/-- **C40.** The forward sweep leaves mean and variance of the filter. -/
theorem C40_forward_sweep (hm : Models env e sys ys N c) (hr : c.Regular) (hα : c.α = 1) (hγ : c.γ = 1) (h : Heap) :
    ∃ h1 h2, graph env N 1 e sys ys h = (.ok (List.range' h.size N), h1) ∧ epFilter env (List.range' h.size N) h1 = (.ok (), h2) ∧
      ∀ i, i < N → Mom1 env (h2.get (h.size + i)).marginal true (c.filtered (1 / 10 ^ 10) i).1 (c.filtered (1 / 10 ^ 10) i).2 := by
  obtain ⟨h1, e1, s1⟩ := Sim.start hm h
  obtain ⟨h2, -, x2, s2⟩ := Sim.steps hm hr ((List.range N).flatMap Chain.fwdPair) (by
    intro k hk
    simp only [List.mem_flatMap, List.mem_range, Chain.fwdPair, List.mem_cons, List.not_mem_nil, or_false] at hk
    obtain ⟨i, hi, rfl | rfl⟩ := hk <;> exact hi) s1
  have hmap : ((List.range N).flatMap Chain.fwdPair).map (fun k => (k.1, h.size + k.2)) =
      (List.range' h.size N).flatMap fun r => [(Upd.fwd, r), (Upd.meas, r)] := by
    rw [List.range'_eq_map_range, List.map_flatMap, List.flatMap_map]
    rfl
  rw [hmap] at x2
  obtain ⟨a1, a2⟩ := executes_fun x2 (C39_other_orders (env := env) (List.range' h.size N) h1).1
  refine ⟨h1, h2, e1, by rw [a1, a2], fun i hi => ?_⟩
  have hM := (s2.isNode hm hi).M.mom
  rw [Chain.forward_sweep hr hα hγ] at hM
  dsimp only at hM
  rw [if_pos hi] at hM
  have hrd := ofMoments_read true (c.filtered eps i).1 (Chain.filtered_pos hr eps_pos.le i) (Chain.filtered_prec hr eps_pos.le i)
  change Mom1 _ _ (ofMoments true _ _).meanSh (ofMoments true _ _).mean (ofMoments true _ _).var at hM
  rw [hrd.1, hrd.2.1, hrd.2.2] at hM
  exact hM

/-- **C40.** The Kalman filter and smoother return the same recursion without the factor. -/
theorem C40_kalman {K : KFS} (hm : ModelsKFS env K ys N c) (hr : c.Regular) (hN : 0 < N) :
    ∃ fs rs, K.kalmanFilter env ys none 0 none = .ok fs ∧ K.kalmanSmoother env fs none = .ok rs ∧ fs.length = N ∧ rs.length = N ∧
      (∀ i, i < N → ∃ g, fs[i]? = some g ∧ Mom1 env g false (c.filtered 0 i).1 (c.filtered 0 i).2) ∧
      ∀ i, i < N → ∃ g, rs[i]? = some g ∧ Mom1 env g false (c.smoothed 0 (N - 1) i).1 (c.smoothed 0 (N - 1) i).2 := by
  obtain ⟨n, rfl⟩ : ∃ n, N = n + 1 := ⟨N - 1, by omega⟩
  refine ⟨_, _, hm.kalmanFilter hr, hm.kalmanSmoother hr, by simp, by simp, fun i hi => ?_, fun i hi => ?_⟩
  · exact ⟨_, by simp [hi], mom1_sG _ _⟩
  · exact ⟨_, by simp [hi], mom1_sG _ _⟩

/-- **C40.** The difference between the two vanishes with the precision of the factor, if functions and transforms are continuous: the
smoother is continuous in this number from the right. -/
theorem C40_gap_vanishes (hr : c.Regular) (hτ : ∀ i, (c.τ i).Continuous) (hκ : c.κ.Continuous) {n i : ℕ} (hi : i ≤ n) :
    Tendsto (fun ε => c.smoothed ε n i) (𝓝[≥] 0) (𝓝 (c.smoothed 0 n i)) := Chain.smoothed_tendsto hr hτ hκ hi

/-- **C40.** The growth model under unscented transforms: the first pass of expectation propagation and the unscented smoother are the same
recursion, up to the factor of precision `10⁻¹⁰`; this recursion is continuous from the right in that number. -/
theorem C40_growth_model {P P' : UTParams} {u u' : UT} {y : ℕ → ℝ} (hcalm : ∀ A : Matrix (Fin 1) (Fin 1) ℝ, env.illPos A = false)
    (hu : UT.init 1 P.a P.b P.k = .ok u) (hu' : UT.init 1 P'.a P'.b P'.k = .ok u') (hP : P.Good) (hP' : P'.Good)
    (hsys : UNGM.init = .ok sys) (hN : 2 ≤ N) (hlen : ys.length = N) (hy : ∀ i a, ys[i]? = some a → IsVec a.squeeze (v1 (y i)))
    (h : Heap) (c : Chain) (hc : c = unscentedChain P P' 1 1 1 10 0 5 growth (fun x => x ^ 2 / 20) y) :
    (∃ h1 h2, graph env N 1 ⟨u.transform env, u'.transform env, some sys.Q, some sys.R, 1, 1⟩ sys ys h =
        (.ok (List.range' h.size N), h1) ∧ epFwdBack env (List.range' h.size N) h1 = (.ok (), h2) ∧
      ∀ i, i < N → Mom1 env (h2.get (h.size + i)).marginal true (c.smoothed (1 / 10 ^ 10) (N - 1) i).1
        (c.smoothed (1 / 10 ^ 10) (N - 1) i).2) ∧
    (∃ fs rs, (KFS.init (u.transform env) sys (some (u'.transform env))).kalmanFilter env ys none 0 none = .ok fs ∧
      (KFS.init (u.transform env) sys (some (u'.transform env))).kalmanSmoother env fs none = .ok rs ∧ rs.length = N ∧
      ∀ i, i < N → ∃ g, rs[i]? = some g ∧ Mom1 env g false (c.smoothed 0 (N - 1) i).1 (c.smoothed 0 (N - 1) i).2) ∧
    ∀ i, i < N → Tendsto (fun ε => c.smoothed ε (N - 1) i) (𝓝[≥] 0) (𝓝 (c.smoothed 0 (N - 1) i)) := by
  subst hc
  have hr : (unscentedChain P P' 1 1 1 10 0 5 growth (fun x => x ^ 2 / 20) y).Regular :=
    unscented_regular hP hP' one_pos one_pos (by norm_num) (by norm_num) _ _ _
  refine ⟨C40_first_pass (ungm_models hcalm hu hu' hP hP' hsys hN hlen hy) hr rfl rfl h, ?_, fun i hi => ?_⟩
  · have hk : ModelsKFS env (KFS.init (u.transform env) sys (some (u'.transform env))) ys N
        (unscentedChain P P' 1 1 1 10 0 5 growth (fun x => x ^ 2 / 20) y) := by
      rw [ungm_eq hsys]
      exact unscented_modelsKFS hu hu' hP hP' (fun i => ungm_f i none) (fun i => ungm_h (some (i * 1)) none) rfl rfl (mom1_sG _ _) hlen hy
    obtain ⟨fs, rs, a1, a2, -, a4, -, a6⟩ := C40_kalman hk hr (by omega)
    exact ⟨fs, rs, a1, a2, a4, a6⟩
  · refine C40_gap_vanishes hr (fun i => unscented_continuous _ _ _ ?_) (unscented_continuous _ _ _ (by fun_prop)) (by omega)
    unfold growth
    have : ∀ x : ℝ, 1 + x ^ 2 ≠ 0 := fun x => by positivity
    fun_prop (disch := assumption)

example (y₀ y₁ : ℝ) (h : Heap) : ∃ u u' sys, UT.init 1 1 2 3 = .ok u ∧ UT.init 1 1 2 2 = .ok u' ∧ UNGM.init = .ok sys ∧
    ∃ fs rs, (KFS.init (u.transform calmEnv) sys (some (u'.transform calmEnv))).kalmanFilter calmEnv [.s y₀, .s y₁] none 0 none = .ok fs ∧
      (KFS.init (u.transform calmEnv) sys (some (u'.transform calmEnv))).kalmanSmoother calmEnv fs none = .ok rs ∧ rs.length = 2 := by
  obtain ⟨u, hu⟩ := init_ok params_trans
  obtain ⟨u', hu'⟩ := init_ok params_meas
  obtain ⟨sys, hs⟩ : ∃ sys, UNGM.init = .ok sys := ⟨_, rfl⟩
  obtain ⟨-, ⟨fs, rs, a1, a2, a3, -⟩, -⟩ := C40_growth_model (env := calmEnv) (N := 2) (ys := [.s y₀, .s y₁])
    (y := fun i => if i = 0 then y₀ else y₁) (fun _ => rfl) hu hu' params_trans params_meas hs le_rfl rfl (by
      intro i a hi
      match i, hi with
      | 0, hi => simp only [List.getElem?_cons_zero, Option.some.injEq] at hi; rw [← hi]; exact isVec_s y₀
      | 1, hi => simp only [List.getElem?_cons_succ, List.getElem?_cons_zero, Option.some.injEq] at hi; rw [← hi]; exact isVec_s y₁)
    h _ rfl
  exact ⟨u, u', sys, hu, hu', hs, fs, rs, a1, a2, a3⟩

/-! ## C43 -/

/-- **C43.** If the transform of the measurement function is exact for an affine function, then after the first pass no further sequence of
updates changes anything: the heap stays the same. -/
theorem C43_converged (hm : Models env e sys ys N c) (hr : c.Regular) (hα : c.α = 1) (hγ : c.γ = 1) {a b : ℝ} (hκ : c.κ.Affine a b)
    (h : Heap) :
    ∃ h1 h2, graph env N 1 e sys ys h = (.ok (List.range' h.size N), h1) ∧ epFwdBack env (List.range' h.size N) h1 = (.ok (), h2) ∧
      ∀ calls : List (Upd × ℕ), (∀ k ∈ calls, k.2 < N) →
        Executes env (calls.map fun k => (k.1, h.size + k.2)) h2 (.ok ()) h2 := by
  obtain ⟨h1, e1, s1⟩ := Sim.start hm h
  obtain ⟨h2, e2, s2⟩ := s1.pass hm hr
  refine ⟨h1, h2, e1, e2, fun calls hk => ?_⟩
  obtain ⟨n, rfl⟩ : ∃ n, N = n + 1 := ⟨N - 1, by have := hm.two; omega⟩
  rw [Chain.first_pass hr hα hγ] at s2
  obtain ⟨h3, -, x3, s3⟩ := Sim.steps hm hr calls hk s2
  rw [Chain.steps_fixed hr hα hγ hκ (fun j hj => if_pos (by omega)) calls hk] at s3
  have : h3 = h2 := Sim.unique hm.length s2 s3 fun i hi => by
    rw [if_pos hi, Chain.smoothedVals_M c (by omega)]; rfl
  rw [this] at x3
  exact x3

/-- **C43.** Every further pass returns normally and leaves all nodes as they are. -/
theorem C43_further_passes (hm : Models env e sys ys N c) (hr : c.Regular) (hα : c.α = 1) (hγ : c.γ = 1) {a b : ℝ} (hκ : c.κ.Affine a b)
    (h : Heap) (n : ℕ) :
    ∃ h1 h2, graph env N 1 e sys ys h = (.ok (List.range' h.size N), h1) ∧
      PyM.forEach (List.range (n + 1)) (fun _ => epFwdBack env (List.range' h.size N)) h1 = (.ok (), h2) ∧
      epFwdBack env (List.range' h.size N) h1 = (.ok (), h2) := by
  obtain ⟨h1, h2, e1, e2, e3⟩ := C43_converged hm hr hα hγ hκ h
  have x := e3 (passCalls N) passCalls_lt
  rw [passCalls_map] at x
  obtain ⟨x1, x2⟩ := executes_fun x (C39_pass_order (env := env) (List.range' h.size N) h2)
  have hfix : epFwdBack env (List.range' h.size N) h2 = (.ok (), h2) := Prod.ext x1.symm x2.symm
  have hrep : ∀ l : List ℕ, PyM.forEach l (fun _ => epFwdBack env (List.range' h.size N)) h2 = (.ok (), h2) := by
    intro l
    induction l with
    | nil => rfl
    | cons x xs ih => rw [PyM.forEach, PyM.bind_ok hfix]; exact ih
  refine ⟨h1, h2, e1, ?_, e2⟩
  rw [List.range_succ_eq_map, PyM.forEach, PyM.bind_ok e2]
  exact hrep _

/-- **C43.** For unscented transforms, an affine measurement function and any transition functions. -/
theorem C43_unscented {P P' : UTParams} {q r m0 p0 g₁ g₀ : ℝ} {u u' : UT} {F : ℕ → ℝ → ℝ} {y : ℕ → ℝ}
    (hcalm : ∀ A : Matrix (Fin 1) (Fin 1) ℝ, env.illPos A = false)
    (hu : UT.init 1 P.a P.b P.k = .ok u) (hu' : UT.init 1 P'.a P'.b P'.k = .ok u') (hP : P.Good) (hP' : P'.Good)
    (hF : ∀ i : ℕ, OnColumns (fun x => sys.transition x (some (i * sys.dt)) (some 0)) (F i))
    (hG : OnColumns (fun x => sys.measurement x none none) (fun x => g₁ * x + g₀)) (hQ : sys.Q = .m (m1 q)) (hR : sys.R = .m (m1 r))
    (h0 : Mom1 env sys.initState false m0 p0) (hq : 0 < q) (hr : 0 < r) (hp : 0 < p0) (hN : 2 ≤ N) (hlen : ys.length = N)
    (hy : ∀ i a, ys[i]? = some a → IsVec a.squeeze (v1 (y i))) (h : Heap) (n : ℕ) :
    ∃ h1 h2, graph env N 1 ⟨u.transform env, u'.transform env, some sys.Q, some sys.R, 1, 1⟩ sys ys h = (.ok (List.range' h.size N), h1) ∧
      PyM.forEach (List.range (n + 1)) (fun _ => epFwdBack env (List.range' h.size N)) h1 = (.ok (), h2) ∧
      epFwdBack env (List.range' h.size N) h1 = (.ok (), h2) :=
  C43_further_passes (unscented_models (γ := 1) hcalm hu hu' hP hP' hF hG hQ hR h0 hN hlen hy)
    (unscented_regular hP hP' one_pos hq hr hp F _ y) rfl rfl (unscented_affine hP'.spread g₁ g₀) h n

/-- The growth model with the measurement `3 x + 1`. -/
example (y₀ y₁ : ℝ) (h : Heap) (n : ℕ) : ∃ e sys h1 h2, sys.transition = UNGM.f ∧
    sys.measurement (.v (v1 2)) none none = .ok (.v (v1 7)) ∧
    graph calmEnv 2 1 e sys [.s y₀, .s y₁] h = (.ok [h.size, h.size + 1], h1) ∧
    epFwdBack calmEnv [h.size, h.size + 1] h1 = (.ok (), h2) ∧
    PyM.forEach (List.range (n + 1)) (fun _ => epFwdBack calmEnv [h.size, h.size + 1]) h1 = (.ok (), h2) := by
  obtain ⟨u, hu⟩ := init_ok params_trans
  obtain ⟨u', hu'⟩ := init_ok params_meas
  obtain ⟨h1, h2, e1, e2, e3⟩ := C43_unscented (env := calmEnv) (N := 2) (ys := [.s y₀, .s y₁]) (g₁ := 3) (g₀ := 1) (F := growth)
    (sys := { transition := UNGM.f, measurement := fun x _ _ => .ok (x.map fun a => 3 * a + 1), Q := .m (m1 1), R := .m (m1 10),
              initState := sG 0 5, dt := 1 })
    (y := fun i => if i = 0 then y₀ else y₁) (fun _ => rfl) hu hu' params_trans params_meas (fun i => ungm_f i (some 0)) (by
      intro M X
      simp only [Arr.map]
      exact congrArg (fun z => Except.ok (Arr.m z)) (funext fun i => funext fun j => by rw [Subsingleton.elim j 0]; rfl))
    rfl rfl (mom1_sG _ _) one_pos (by norm_num) (by norm_num) le_rfl rfl (by
      intro i a hi
      match i, hi with
      | 0, hi => simp only [List.getElem?_cons_zero, Option.some.injEq] at hi; rw [← hi]; exact isVec_s y₀
      | 1, hi => simp only [List.getElem?_cons_succ, List.getElem?_cons_zero, Option.some.injEq] at hi; rw [← hi]; exact isVec_s y₁) h n
  refine ⟨_, _, h1, h2, rfl, ?_, e1, e3, e2⟩
  refine congrArg (fun f : Fin 1 → ℝ => Except.ok (Arr.v f)) (funext fun _ => ?_)
  simp only [v1]
  norm_num

end Verif
