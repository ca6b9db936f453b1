import Verif.Lemmas.ScalarDamped
import Verif.Props.Power

/-!
# Damped power expectation propagation on scalar states (C81, C82)
-/

namespace Verif

open Matrix Gaussian Node Site Filter Topology

variable {env : Env} {e : Estimator} {sys : Sys} {ys : List Arr} {N s : ℕ} {c : Chain}

theorem steps_replicate (c : Chain) (N : ℕ) (calls : List (Upd × ℕ)) (k : ℕ) (V : ℕ → Vals) :
    c.steps N (List.replicate k calls).flatten V = (c.steps N calls)^[k] V := by
  induction k generalizing V with
  | zero => rfl
  | succ k ih => rw [List.replicate_succ, List.flatten_cons, Chain.steps_append, ih, Function.iterate_succ_apply]

/-- After `k` passes over the nodes that start at `s`: node `i` reads the estimate. -/
def ReadsEstimates (env : Env) (c : Chain) (N s k : ℕ) (h : Heap) : Prop :=
  ∀ i, i < N → ∃ b, Mom1 env (h.get (s + i)).marginal b (c.estimates N k i).1 (c.estimates N k i).2

theorem passes_read (hm : Models env e sys ys N c) (hr : c.Regular) (h : Heap) :
    ∃ h1, graph env N 1 e sys ys h = (.ok (List.range' h.size N), h1) ∧
      ∀ k, ∃ h2, PyM.forEach (List.range k) (fun _ => epFwdBack env (List.range' h.size N)) h1 = (.ok (), h2) ∧
        ReadsEstimates env c N h.size k h2 ∧
        ∀ i, i < N → IsNode env (h2.get (h.size + i)) ((c.steps N (passCalls N))^[k] (fun _ => Chain.start) i) := by
  obtain ⟨h1, e1, s1⟩ := Sim.start hm h
  refine ⟨h1, e1, fun k => ?_⟩
  obtain ⟨h2, e2, s2⟩ := Sim.passes hm hr k s1
  rw [steps_replicate] at s2
  exact ⟨h2, e2, fun i hi => ⟨_, (s2.isNode hm hi).M.mom⟩, fun i hi => s2.isNode hm hi⟩

/-- **C81.** Damped power EP converges to the smoother: if all functions are affine, the power lies strictly between zero and one and the
damping in `(0, 1]`, every number of passes succeeds and the means and variances of all nodes converge to those of the smoother (with a
factor of precision `10⁻¹⁰` at every prediction). -/
theorem C81_converges (hm : Models env e sys ys N c) (hr : c.Regular) (hα : c.α < 1) (h0 : 0 < c.γ) (h1 : c.γ ≤ 1) {a b : ℝ}
    (hκ : c.κ.Affine a b) {A B : ℕ → ℝ} (hτ : ∀ i, (c.τ i).Affine (A i) (B i))
    (ht : ∀ i, i < N - 1 → 1 / 10 ^ 10 * (1 - c.α) < 1 / (A (i + 1) ^ 2 * (c.filtered (1 / 10 ^ 10) i).2 + c.q / c.α)) (h : Heap) :
    (∃ h1, graph env N 1 e sys ys h = (.ok (List.range' h.size N), h1) ∧
      ∀ k, ∃ h2, PyM.forEach (List.range k) (fun _ => epFwdBack env (List.range' h.size N)) h1 = (.ok (), h2) ∧
        ReadsEstimates env c N h.size k h2) ∧
    ∀ i, i < N → Tendsto (fun k => c.estimates N k i) atTop (𝓝 (c.smoothed (1 / 10 ^ 10) (N - 1) i)) := by
  obtain ⟨g1, e1, e2⟩ := passes_read hm hr h
  refine ⟨⟨g1, e1, fun k => ?_⟩, fun i hi => ?_⟩
  · obtain ⟨g2, a1, a2, -⟩ := e2 k
    exact ⟨g2, a1, a2⟩
  · obtain ⟨n, rfl⟩ : ∃ n, N = n + 1 := ⟨N - 1, by omega⟩
    rw [Nat.add_sub_cancel] at ht ⊢
    have hi' : i ≤ n := by omega
    exact Chain.estimates_to hr hα h0 h1 hκ hi' (Chain.marginal_to hr hα h0 h1 hκ (fun i => Chain.Affine.continuous (hτ i)) hi'
      (Chain.after_B_to hr hα h0 h1 hκ hτ ht hi'))

/-- **C81.** For arbitrary continuous transitions (and affine measurements) the last node converges to the filter. -/
theorem C81_last_node (hm : Models env e sys ys N c) (hr : c.Regular) (hα : c.α < 1) (h0 : 0 < c.γ) (h1 : c.γ ≤ 1) {a b : ℝ}
    (hκ : c.κ.Affine a b) (hτ : ∀ i, (c.τ i).Continuous) (h : Heap) :
    (∃ h1, graph env N 1 e sys ys h = (.ok (List.range' h.size N), h1) ∧
      ∀ k, ∃ h2, PyM.forEach (List.range k) (fun _ => epFwdBack env (List.range' h.size N)) h1 = (.ok (), h2) ∧
        ReadsEstimates env c N h.size k h2) ∧
    Tendsto (fun k => c.estimates N k (N - 1)) atTop (𝓝 (c.filtered (1 / 10 ^ 10) (N - 1))) := by
  obtain ⟨g1, e1, e2⟩ := passes_read hm hr h
  refine ⟨⟨g1, e1, fun k => ?_⟩, ?_⟩
  · obtain ⟨g2, a1, a2, -⟩ := e2 k
    exact ⟨g2, a1, a2⟩
  · obtain ⟨n, rfl⟩ : ∃ n, N = n + 1 := ⟨N - 1, by have := hm.two; omega⟩
    rw [Nat.add_sub_cancel, ← Chain.smoothed_last c]
    exact Chain.estimates_to hr hα h0 h1 hκ le_rfl (Chain.marginal_to hr hα h0 h1 hκ hτ le_rfl
      (Chain.after_B_last_to hr hα h0 h1 hκ n))

/-- **C81.** After `k` passes the measurement factor of every node is the likelihood of its measurement, its precision and shift multiplied
by the power and by `1 - (1 - damping)ᵏ`, whatever the transitions are. -/
theorem C81_measurement_factor (hm : Models env e sys ys N c) (hr : c.Regular) (hα : c.α < 1) (h0 : 0 < c.γ) (h1 : c.γ ≤ 1) {a b : ℝ}
    (hκ : c.κ.Affine a b) (h : Heap) :
    ∃ h1, graph env N 1 e sys ys h = (.ok (List.range' h.size N), h1) ∧
      ∀ k, ∃ h2, PyM.forEach (List.range k) (fun _ => epFwdBack env (List.range' h.size N)) h1 = (.ok (), h2) ∧
        ∀ i, i < N → ∃ sh, Is env (h2.get (h.size + i)).measFactor
          ⟨sh, (1 - (1 - c.γ) ^ k) * (c.α * (a ^ 2 / c.r)), (1 - (1 - c.γ) ^ k) * (c.α * (a * (c.y i - b) / c.r))⟩ := by
  obtain ⟨g1, e1, e2⟩ := passes_read hm hr h
  refine ⟨g1, e1, fun k => ?_⟩
  obtain ⟨g2, a1, -, a3⟩ := e2 k
  refine ⟨g2, a1, fun i hi => ?_⟩
  obtain ⟨n, rfl⟩ : ∃ n, N = n + 1 := ⟨N - 1, by omega⟩
  have hY := (a3 i hi).Y
  obtain ⟨y1, y2⟩ := Chain.after_Y (n := n) hr hα h0 h1 hκ k (i := i) (by omega)
  refine ⟨(c.after n k i).Y.sh, ?_⟩
  rw [← y1, ← y2]
  exact hY

/-- The measurements make the filter precise enough. -/
theorem heard_of_bound_lt (hr : c.Regular) {a b : ℝ} (hκ : c.κ.Affine a b) {A : ℕ → ℝ} (ha : a ≠ 0)
    (hc : ∀ i, A i ^ 2 * (c.r / a ^ 2) + c.q / c.α ≤ 10 ^ 10) (i : ℕ) :
    1 / 10 ^ 10 * (1 - c.α) < 1 / (A (i + 1) ^ 2 * (c.filtered (1 / 10 ^ 10) i).2 + c.q / c.α) := by
  have hα0 := hr.α
  have hr0 := hr.r
  have hq := hr.q
  have hp := Chain.predict_pos hr i (Chain.before_pos hr eps_pos.le i)
  have hd := damp_pos eps_pos.le hp
  have k := (c.correct_affine hκ hr0 i hd.1).1
  rw [← Chain.filtered_eq] at k
  have hf : 0 < (c.filtered eps i).2 := Chain.filtered_pos hr eps_pos.le i
  have k2 : a ^ 2 / c.r ≤ 1 / (c.filtered eps i).2 := by
    have : 0 < 1 / (Chain.damp eps (c.predict i (c.before eps i))).2 := one_div_pos.2 hd.1
    linarith
  have k3 : (c.filtered eps i).2 ≤ c.r / a ^ 2 := by
    have ha2 : 0 < a ^ 2 := by positivity
    rw [div_le_div_iff₀ hr0 hf, one_mul] at k2
    rw [le_div_iff₀ ha2]
    linarith
  have k4 : A (i + 1) ^ 2 * (c.filtered eps i).2 + c.q / c.α ≤ 10 ^ 10 := by
    have := mul_le_mul_of_nonneg_left k3 (sq_nonneg (A (i + 1)))
    have := hc (i + 1)
    linarith
  have k5 : 0 < A (i + 1) ^ 2 * (c.filtered eps i).2 + c.q / c.α := by positivity
  have k6 := one_div_le_one_div_of_le k5 k4
  have k7 : (1 / 10 ^ 10 : ℝ) * (1 - c.α) < 1 / 10 ^ 10 := by
    have : 0 < (1 / 10 ^ 10 : ℝ) * c.α := by positivity
    linarith
  exact k7.trans_le k6

theorem filtered_damping (c : Chain) (α γ ε : ℝ) (i : ℕ) : Chain.filtered { c with α := α, γ := γ } ε i = c.filtered ε i := by
  induction i with
  | zero => rfl
  | succ i ih => simp only [Chain.filtered, ih]; rfl

theorem smoothed_damping (c : Chain) (α γ ε : ℝ) (n i : ℕ) : Chain.smoothed { c with α := α, γ := γ } ε n i = c.smoothed ε n i := by
  unfold Chain.smoothed
  induction n - i with
  | zero => exact filtered_damping c α γ ε n
  | succ k ih => simp only [Chain.smoothedBack, ih, filtered_damping]; rfl

/-- **C81.** For unscented transforms and affine functions: every number of passes succeeds, and the limit is the same for all powers below
one and all dampings. -/
theorem C81_unscented {P P' : UTParams} {α γ q r m0 p0 g₁ g₀ : ℝ} {A B : ℕ → ℝ} {u u' : UT} {y : ℕ → ℝ}
    (hcalm : ∀ A : Matrix (Fin 1) (Fin 1) ℝ, env.illPos A = false)
    (hu : UT.init 1 P.a P.b P.k = .ok u) (hu' : UT.init 1 P'.a P'.b P'.k = .ok u') (hP : P.Good) (hP' : P'.Good)
    (hF : ∀ i : ℕ, OnColumns (fun x => sys.transition x (some (i * sys.dt)) (some 0)) (fun x => A i * x + B i))
    (hG : OnColumns (fun x => sys.measurement x none none) (fun x => g₁ * x + g₀)) (hQ : sys.Q = .m (m1 q)) (hR : sys.R = .m (m1 r))
    (h0 : Mom1 env sys.initState false m0 p0) (hα : 0 < α) (hα1 : α < 1) (hγ : 0 < γ) (hγ1 : γ ≤ 1) (hq : 0 < q) (hr : 0 < r) (hp : 0 < p0)
    (hN : 2 ≤ N) (hlen : ys.length = N) (hy : ∀ i a, ys[i]? = some a → IsVec a.squeeze (v1 (y i)))
    (hg : g₁ ≠ 0) (hc : ∀ i, A i ^ 2 * (r / g₁ ^ 2) + q / α ≤ 10 ^ 10) (h : Heap) :
    ∃ est : ℕ → ℕ → ℝ × ℝ,
      (∃ h1, graph env N 1 ⟨u.transform env, u'.transform env, some sys.Q, some sys.R, α, γ⟩ sys ys h = (.ok (List.range' h.size N), h1) ∧
        ∀ k, ∃ h2, PyM.forEach (List.range k) (fun _ => epFwdBack env (List.range' h.size N)) h1 = (.ok (), h2) ∧
          ∀ i, i < N → ∃ sh, Mom1 env (h2.get (h.size + i)).marginal sh (est k i).1 (est k i).2) ∧
      ∀ i, i < N → Tendsto (fun k => est k i) atTop
        (𝓝 ((unscentedChain P P' 1 1 q r m0 p0 (fun i x => A i * x + B i) (fun x => g₁ * x + g₀) y).smoothed (1 / 10 ^ 10) (N - 1) i)) := by
  have hm := unscented_models (γ := γ) (α := α) hcalm hu hu' hP hP' hF hG hQ hR h0 hN hlen hy
  have hreg := unscented_regular (γ := γ) (m0 := m0) hP hP' hα hq hr hp (fun i x => A i * x + B i) (fun x => g₁ * x + g₀) y
  have hκ := unscented_affine (b := P'.b) hP'.spread g₁ g₀
  have hτ := fun i => unscented_affine (b := P.b) hP.spread (A i) (B i)
  obtain ⟨x1, x2⟩ := C81_converges hm hreg hα1 hγ hγ1 hκ hτ (fun i _ => heard_of_bound_lt (A := A) hreg hκ hg hc i) h
  refine ⟨_, x1, fun i hi => ?_⟩
  have k := x2 i hi
  rw [← smoothed_damping _ 1 1] at k
  exact k

/-- **C82.** With damping below one, power one is a special case: of the last node but one, the variance after the first pass is one and the
same number `w` for all powers below one, but a larger number `v` for power one. -/
theorem C82_power_one (hm : Models env e sys ys N c) (hr : c.Regular) (hα : c.α = 1) (h0 : 0 < c.γ) (h1 : c.γ < 1) {a b : ℝ}
    (hκ : c.κ.Affine a b) {A B : ℝ} (hτ : (c.τ (N - 1)).Affine A B) (hA : A ≠ 0) :
    ∃ w v : ℝ, 0 < w ∧ w < v ∧
      (∀ h : Heap, ∃ h1 h2, graph env N 1 e sys ys h = (.ok (List.range' h.size N), h1) ∧ epFwdBack env (List.range' h.size N) h1 = (.ok (), h2) ∧
        (h2.get (h.size + (N - 2))).marginal.cov env = .ok (some (.m (m1 v)))) ∧
      ∀ (e' : Estimator) (α' : ℝ), Models env e' sys ys N { c with α := α' } → 0 < α' → α' < 1 →
        (1 - α') * (A ^ 2 + c.q / (α' * 10 ^ 10)) ≤ 1 →
        ∀ h : Heap, ∃ h1 h2, graph env N 1 e' sys ys h = (.ok (List.range' h.size N), h1) ∧ epFwdBack env (List.range' h.size N) h1 = (.ok (), h2) ∧
          (h2.get (h.size + (N - 2))).marginal.cov env = .ok (some (.m (m1 w))) := by
  obtain ⟨i, rfl⟩ : ∃ i, N = i + 2 := ⟨N - 2, by have := hm.two; omega⟩
  rw [show i + 2 - 1 = i + 1 by omega] at hτ
  have hq := hr.q
  have hr0 := hr.r
  have hlt := Chain.first_at_one hr hα h0 h1 hκ hτ hA
  obtain ⟨hφe, hT0, -, -⟩ := Chain.first_one_value hr hα h0 h1.le hκ hτ rfl rfl rfl
  set p := (c.filt (c.swept (i + 1) i)).p +
      c.γ * (A ^ 2 * (eps + c.γ * (a ^ 2 / c.r)) / (c.q * (eps + c.γ * (a ^ 2 / c.r)) + 1)) with hp
  have hpe : eps < p := by
    have : 0 < c.γ * (A ^ 2 * (eps + c.γ * (a ^ 2 / c.r)) / (c.q * (eps + c.γ * (a ^ 2 / c.r)) + 1)) := by positivity
    linarith
  have hp0 := eps_pos.trans hpe
  have run : ∀ {e' : Estimator} {c' : Chain}, Models env e' sys ys (i + 2) c' → c'.Regular → ∀ h : Heap,
      ∃ h1 h2, graph env (i + 2) 1 e' sys ys h = (.ok (List.range' h.size (i + 2)), h1) ∧
        epFwdBack env (List.range' h.size (i + 2)) h1 = (.ok (), h2) ∧
        (h2.get (h.size + i)).marginal.cov env = .ok (some (.m (m1 (c'.after (i + 1) 1 i).M.var))) := by
    intro e' c' hm' hr' h
    obtain ⟨g1, e1, s1⟩ := Sim.start hm' h
    obtain ⟨g2, e2, s2⟩ := s1.pass hm' hr'
    exact ⟨g1, g2, e1, e2, (s2.isNode hm' (show i < i + 2 by omega)).M.mom.2⟩
  refine ⟨1 / p, (c.after (i + 1) 1 i).M.var, by positivity, ?_, fun h => run hm hr h, fun e' α' hm' hα0' hα1' hc h => ?_⟩
  · by_cases hth : (c.after (i + 1) 1 i).M.p < 1 / 10 ^ 10
    · have : (c.after (i + 1) 1 i).M.var = 10 ^ 10 := if_pos hth
      rw [this, div_lt_iff₀ hp0]
      have h2 : (1 / 10 ^ 10 : ℝ) < p := hpe
      rw [div_lt_iff₀ (by positivity)] at h2
      linarith
    · have : (c.after (i + 1) 1 i).M.var = 1 / (c.after (i + 1) 1 i).M.p := if_neg hth
      rw [this]
      exact one_div_lt_one_div_of_lt (lt_of_lt_of_le (by positivity) (not_lt.1 hth)) hlt
  · have hr' : Chain.Regular { c with α := α' } := ⟨hα0', hr.q, hr.r, hr.p0, hr.τ, hr.κ⟩
    obtain ⟨g1, g2, e1, e2, e3⟩ := run hm' hr' h
    refine ⟨g1, g2, e1, e2, ?_⟩
    have hM := Chain.first_below (c := { c with α := α' }) hr' hα1' h0 h1.le hκ hτ hc
    rw [Chain.filt_swept_power hr hα.le h0 h1.le hκ hα0' hα1'.le (by omega)] at hM
    have hM' : (Chain.after { c with α := α' } (i + 1) 1 i).M.p = p := hM
    rw [(Site.read _ (by rw [hM']; exact hpe.le)).2.1, hM'] at e3
    exact e3

/-- **C82.** At power one with damping `γ < 1` the backward sweep of the first pass can take information away: if the damped information
`10⁻¹⁰ + γ a² / r` of a measurement is less than `1 - γ` times the information of the last prediction, then the variance of the last node
but one is larger after the pass than after its forward sweep. -/
theorem C82_backward_loses (hm : Models env e sys ys N c) (hr : c.Regular) (hα : c.α = 1) (h0 : 0 < c.γ) (h1 : c.γ ≤ 1) {a b : ℝ}
    (hκ : c.κ.Affine a b) {A B : ℝ} (hτ : (c.τ (N - 1)).Affine A B) (hA : A ≠ 0) (h : Heap) :
    ∃ h1 hf h2 v w, graph env N 1 e sys ys h = (.ok (List.range' h.size N), h1) ∧
      epFilter env (List.range' h.size N) h1 = (.ok (), hf) ∧ epFwdBack env (List.range' h.size N) h1 = (.ok (), h2) ∧
      (hf.get (h.size + (N - 2))).marginal.cov env = .ok (some (.m (m1 v))) ∧
      (h2.get (h.size + (N - 2))).marginal.cov env = .ok (some (.m (m1 w))) ∧
      0 < v ∧ v * (c.γ * (a ^ 2 / c.r)) ≤ 1 ∧ (1 / 10 ^ 10 + c.γ * (a ^ 2 / c.r) < (1 - c.γ) * (1 / (A ^ 2 * v + c.q)) → v < w) := by
  obtain ⟨i, rfl⟩ : ∃ i, N = i + 2 := ⟨N - 2, by have := hm.two; omega⟩
  rw [show i + 2 - 1 = i + 1 by omega] at hτ
  obtain ⟨g1, e1, s1⟩ := Sim.start hm h
  obtain ⟨g2, e2, s2⟩ := s1.pass hm hr
  obtain ⟨gf, -, xf, sf⟩ := Sim.steps hm hr ((List.range (i + 2)).flatMap Chain.fwdPair) (by
    intro k hk
    simp only [List.mem_flatMap, List.mem_range, Chain.fwdPair, List.mem_cons, List.not_mem_nil, or_false] at hk
    obtain ⟨i, hi, rfl | rfl⟩ := hk <;> exact hi) s1
  have hmap : ((List.range (i + 2)).flatMap Chain.fwdPair).map (fun k => (k.1, h.size + k.2)) =
      (List.range' h.size (i + 2)).flatMap fun r => [(Upd.fwd, r), (Upd.meas, r)] := by
    rw [List.range'_eq_map_range, List.map_flatMap, List.flatMap_map]
    rfl
  rw [hmap] at xf
  obtain ⟨a1, a2⟩ := executes_fun xf (C39_other_orders (env := env) (List.range' h.size (i + 2)) g1).1
  have c1 : (gf.get (h.size + i)).marginal.cov env = .ok (some (.m (m1 (c.swept (i + 1) i).M.var))) :=
    (sf.isNode hm (show i < i + 2 by omega)).M.mom.2
  have c2 : (g2.get (h.size + i)).marginal.cov env = .ok (some (.m (m1 (c.after (i + 1) 1 i).M.var))) :=
    (s2.isNode hm (show i < i + 2 by omega)).M.mom.2
  refine ⟨g1, gf, g2, _, _, e1, by rw [a1, a2], e2, c1, c2, Site.var_pos _, ?_, fun hl => ?_⟩
  · obtain ⟨hφe, -, hM, -⟩ := Chain.first_one_value hr hα h0 h1 hκ hτ rfl rfl rfl
    have hφ0 := eps_pos.trans_le hφe
    rw [(Site.read _ (by rw [hM]; exact hφe)).2.1, hM, one_div, inv_mul_le_iff₀ hφ0, mul_one]
    exact (Chain.filt_swept_lt hr hα.le h0 h1 hκ (by omega)).2
  obtain ⟨hφe, hT0, hM, -⟩ := Chain.first_one_value hr hα h0 h1 hκ hτ rfl rfl rfl
  have hφ0 := eps_pos.trans_le hφe
  have hv : (c.swept (i + 1) i).M.var = 1 / (c.filt (c.swept (i + 1) i)).p := by
    rw [(Site.read _ (by rw [hM]; exact hφe)).2.1, hM]
  rw [hv] at hl ⊢
  have hlt := Chain.first_one_loses hr hα h0 h1 hκ hτ hA hl
  rw [hM] at hlt
  by_cases hth : (c.after (i + 1) 1 i).M.p < 1 / 10 ^ 10
  · have : (c.after (i + 1) 1 i).M.var = 10 ^ 10 := if_pos hth
    rw [this, div_lt_iff₀ hφ0]
    have h2 : (1 / 10 ^ 10 : ℝ) < (c.filt (c.swept (i + 1) i)).p := (Chain.filt_swept_lt hr hα.le h0 h1 hκ (by omega)).1
    rw [div_lt_iff₀ (by positivity)] at h2
    linarith
  · have : (c.after (i + 1) 1 i).M.var = 1 / (c.after (i + 1) 1 i).M.p := if_neg hth
    rw [this]
    exact one_div_lt_one_div_of_lt (lt_of_lt_of_le (by positivity) (not_lt.1 hth)) hlt

/-- The system of the examples: `x ↦ A x`, observed as `3 x + 1`. -/
noncomputable def lineSys (A : ℝ) : Sys :=
  { transition := fun x _ _ => .ok (x.map fun a => A * a + 0), measurement := fun x _ _ => .ok (x.map fun a => 3 * a + 1),
    Q := .m (m1 1), R := .m (m1 100), initState := sG 0 5, dt := 1 }

theorem lineSys_columns (A : ℝ) : (∀ t s, OnColumns (fun x => (lineSys A).transition x t s) (fun x => A * x + 0)) ∧
    OnColumns (fun x => (lineSys A).measurement x none none) (fun x => 3 * x + 1) := by
  constructor
  · intro t s M X
    simp only [lineSys, Arr.map]
    exact congrArg (fun z => Except.ok (Arr.m z)) (funext fun i => funext fun j => by rw [Subsingleton.elim j 0]; rfl)
  · intro M X
    simp only [lineSys, Arr.map]
    exact congrArg (fun z => Except.ok (Arr.m z)) (funext fun i => funext fun j => by rw [Subsingleton.elim j 0]; rfl)

theorem pair_obs (y₀ y₁ : ℝ) : ∀ (i : ℕ) a, [Arr.s y₀, Arr.s y₁][i]? = some a → IsVec a.squeeze (v1 ((fun i : ℕ => if i = 0 then y₀ else y₁) i)) := by
  intro i a hi
  match i, hi with
  | 0, hi => simp only [List.getElem?_cons_zero, Option.some.injEq] at hi; rw [← hi]; exact isVec_s y₀
  | 1, hi => simp only [List.getElem?_cons_succ, List.getElem?_cons_zero, Option.some.injEq] at hi; rw [← hi]; exact isVec_s y₁

/-- The chain of the examples. -/
noncomputable def lineChain (A α γ y₀ y₁ : ℝ) : Chain :=
  unscentedChain ⟨1, 2, 3⟩ ⟨1, 2, 2⟩ α γ 1 100 0 5 (fun _ x => A * x + 0) (fun x => 3 * x + 1) fun i => if i = 0 then y₀ else y₁

theorem line_models (A α γ y₀ y₁ : ℝ) : ∃ u u' : UT, Models calmEnv ⟨u.transform calmEnv, u'.transform calmEnv, some (.m (m1 1)), some (.m (m1 100)), α, γ⟩
    (lineSys A) [.s y₀, .s y₁] 2 (lineChain A α γ y₀ y₁) := by
  obtain ⟨u, hu⟩ := init_ok params_trans
  obtain ⟨u', hu'⟩ := init_ok params_meas
  exact ⟨u, u', unscented_models (sys := lineSys A) (fun _ => rfl) hu hu' params_trans params_meas (fun i => (lineSys_columns A).1 _ _)
    (lineSys_columns A).2 rfl rfl (mom1_sG _ _) le_rfl rfl (pair_obs y₀ y₁)⟩

theorem line_regular (A γ y₀ y₁ : ℝ) {α : ℝ} (hα : 0 < α) : (lineChain A α γ y₀ y₁).Regular :=
  unscented_regular params_trans params_meas hα one_pos (by norm_num) (by norm_num) _ _ _

/-- C81: power 1/2, damping 1/4. -/
example (y₀ y₁ : ℝ) (h : Heap) : ∃ (e : Estimator) (h1 : Heap) (est : ℕ → ℝ × ℝ) (l : ℝ × ℝ), e.power = 1 / 2 ∧ e.damping = 1 / 4 ∧
    graph calmEnv 2 1 e (lineSys 2) [.s y₀, .s y₁] h = (.ok [h.size, h.size + 1], h1) ∧
    (∀ k, ∃ h2, PyM.forEach (List.range k) (fun _ => epFwdBack calmEnv [h.size, h.size + 1]) h1 = (.ok (), h2) ∧
      ∃ sh, Mom1 calmEnv (h2.get h.size).marginal sh (est k).1 (est k).2) ∧ 0 < l.2 ∧ Tendsto est atTop (𝓝 l) := by
  obtain ⟨u, u', hm⟩ := line_models 2 (1 / 2) (1 / 4) y₀ y₁
  have hr := line_regular 2 (1 / 4) y₀ y₁ (α := 1 / 2) (by norm_num)
  have hκ := unscented_affine (b := 2) params_meas.spread 3 1
  have hτ := fun _ : ℕ => unscented_affine (b := 2) params_trans.spread 2 0
  obtain ⟨⟨h1, e1, e2⟩, e3⟩ := C81_converges hm hr (by norm_num [lineChain, unscentedChain]) (by norm_num [lineChain, unscentedChain])
    (by norm_num [lineChain, unscentedChain]) hκ hτ
    (fun i _ => heard_of_bound_lt (A := fun _ => 2) hr hκ (by norm_num) (fun _ => by norm_num [lineChain, unscentedChain]) i) h
  refine ⟨_, h1, fun k => (lineChain 2 (1 / 2) (1 / 4) y₀ y₁).estimates 2 k 0, _, rfl, rfl, e1, fun k => ?_, ?_, e3 0 (by norm_num)⟩
  · obtain ⟨h2, a1, a2⟩ := e2 k
    exact ⟨h2, a1, a2 0 (by norm_num)⟩
  · exact (Chain.smoothed_pos hr (by positivity) (by norm_num)).1

/-- C82: power one and power 9/10, damping 1/2. -/
example (y₀ y₁ : ℝ) : ∃ (e e' : Estimator) (w v : ℝ), e.power = 1 ∧ e'.power = 9 / 10 ∧ e.damping = 1 / 2 ∧ e'.damping = 1 / 2 ∧ w < v ∧
    (∀ h : Heap, ∃ h1 h2, graph calmEnv 2 1 e (lineSys 2) [.s y₀, .s y₁] h = (.ok [h.size, h.size + 1], h1) ∧
      epFwdBack calmEnv [h.size, h.size + 1] h1 = (.ok (), h2) ∧ (h2.get h.size).marginal.cov calmEnv = .ok (some (.m (m1 v)))) ∧
    ∀ h : Heap, ∃ h1 h2, graph calmEnv 2 1 e' (lineSys 2) [.s y₀, .s y₁] h = (.ok [h.size, h.size + 1], h1) ∧
      epFwdBack calmEnv [h.size, h.size + 1] h1 = (.ok (), h2) ∧ (h2.get h.size).marginal.cov calmEnv = .ok (some (.m (m1 w))) := by
  obtain ⟨u, u', hm⟩ := line_models 2 1 (1 / 2) y₀ y₁
  obtain ⟨u2, u2', hm'⟩ := line_models 2 (9 / 10) (1 / 2) y₀ y₁
  have hr := line_regular 2 (1 / 2) y₀ y₁ (α := 1) (by norm_num)
  have hκ := unscented_affine (b := 2) params_meas.spread 3 1
  have hτ := unscented_affine (b := 2) params_trans.spread 2 0
  obtain ⟨w, v, -, hwv, a1, a2⟩ := C82_power_one hm hr rfl (by norm_num [lineChain, unscentedChain]) (by norm_num [lineChain, unscentedChain])
    hκ hτ two_ne_zero
  exact ⟨_, _, w, v, rfl, rfl, rfl, rfl, hwv, a1, a2 _ (9 / 10) hm' (by norm_num) (by norm_num) (by norm_num [lineChain, unscentedChain])⟩

/-- C82: a strongly contracting system, damping 1/2; the backward sweep loses information. -/
example (y₀ y₁ : ℝ) (h : Heap) : ∃ (e : Estimator) (h1 hf h2 : Heap) (v w : ℝ),
    graph calmEnv 2 1 e (lineSys (1 / 10)) [.s y₀, .s y₁] h = (.ok [h.size, h.size + 1], h1) ∧
    epFilter calmEnv [h.size, h.size + 1] h1 = (.ok (), hf) ∧ epFwdBack calmEnv [h.size, h.size + 1] h1 = (.ok (), h2) ∧
    (hf.get h.size).marginal.cov calmEnv = .ok (some (.m (m1 v))) ∧ (h2.get h.size).marginal.cov calmEnv = .ok (some (.m (m1 w))) ∧ v < w := by
  obtain ⟨u, u', hm⟩ := line_models (1 / 10) 1 (1 / 2) y₀ y₁
  have hr := line_regular (1 / 10) (1 / 2) y₀ y₁ (α := 1) (by norm_num)
  have hκ := unscented_affine (b := 2) params_meas.spread 3 1
  have hτ := unscented_affine (b := 2) params_trans.spread (1 / 10) 0
  obtain ⟨h1, hf, h2, v, w, a1, a2, a3, a4, a5, a6, a7, a8⟩ := C82_backward_loses hm hr rfl (by norm_num [lineChain, unscentedChain])
    (by norm_num [lineChain, unscentedChain]) hκ hτ (by norm_num) h
  refine ⟨_, h1, hf, h2, v, w, a1, a2, a3, a4, a5, a8 ?_⟩
  simp only [lineChain, unscentedChain] at a7 ⊢
  have hv : v ≤ 23 := by linarith
  have : 1 / (123 / 100 : ℝ) ≤ 1 / ((1 / 10) ^ 2 * v + 1) := one_div_le_one_div_of_le (by positivity) (by linarith)
  norm_num at this ⊢
  linarith

end Verif
