import Verif.Lemmas.ScalarPower
import Verif.Props.FirstPass

/-!
# Power expectation propagation on scalar affine systems does not depend on the power (C70)
-/

namespace Verif

open Matrix Gaussian Node Site

variable {env : Env} {e : Estimator} {sys : Sys} {ys : List Arr} {N s : ℕ} {c : Chain}

theorem mom_smoothed (hr : c.Regular) {n i : ℕ} (hi : i ≤ n) {g : Gaussian} {v : Vals} (hM : Is env g v.M) (hv : v.M = (c.smoothedVals n i).M) :
    Mom1 env g true (c.smoothed (1 / 10 ^ 10) n i).1 (c.smoothed (1 / 10 ^ 10) n i).2 := by
  have h := hM.mom
  rw [hv, Chain.smoothedVals_M c hi] at h
  have hrd := ofMoments_read true (c.smoothed eps n i).1 (Chain.smoothed_pos hr eps_pos.le hi).1 (Chain.smoothed_prec hr eps_pos.le hi)
  rw [hrd.1, hrd.2.1, hrd.2.2] at h
  exact h

/-- **C70.** The forward sweep with damping one and any power leaves mean and variance of the filter, if the measurement function is affine:
they do not depend on the power.  The transitions are arbitrary. -/
theorem C70_forward_sweep (hm : Models env e sys ys N c) (hr : c.Regular) (hγ : c.γ = 1) {a b : ℝ} (hκ : c.κ.Affine a b) (h : Heap) :
    ∃ h1 h2, graph env N 1 e sys ys h = (.ok (List.range' h.size N), h1) ∧ epFilter env (List.range' h.size N) h1 = (.ok (), h2) ∧
      ∀ i, i < N → Mom1 env (h2.get (h.size + i)).marginal true (c.filtered (1 / 10 ^ 10) i).1 (c.filtered (1 / 10 ^ 10) i).2 := by
  obtain ⟨h1, e1, s1⟩ := Sim.start hm h
  obtain ⟨h2, -, x2, s2⟩ := Sim.steps hm hr ((List.range N).flatMap Chain.fwdPair) (by
    intro k hk
    simp only [List.mem_flatMap, List.mem_range, Chain.fwdPair, List.mem_cons, List.not_mem_nil, or_false] at hk
    obtain ⟨i, hi, rfl | rfl⟩ := hk <;> exact hi) s1
  have hmap : ((List.range N).flatMap Chain.fwdPair).map (fun k => (k.1, h.size + k.2)) =
      (List.range' h.size N).flatMap fun r => [(Upd.fwd, r), (Upd.meas, r)] := by
    rw [List.range'_eq_map_range, List.map_flatMap, List.flatMap_map]
    rfl
  rw [hmap] at x2
  obtain ⟨a1, a2⟩ := executes_fun x2 (C39_other_orders (env := env) (List.range' h.size N) h1).1
  refine ⟨h1, h2, e1, by rw [a1, a2], fun i hi => ?_⟩
  have hM := (s2.isNode hm hi).M.mom
  rw [Chain.forward_sweep_to c N (fun i => Chain.pw c.α (c.filteredVals i)) (fun _ _ hi hV => Chain.fwdPair_power hr hγ hκ N hi hV)] at hM
  dsimp only at hM
  rw [if_pos hi] at hM
  have hrd := ofMoments_read true (c.filtered eps i).1 (Chain.filtered_pos hr eps_pos.le i) (Chain.filtered_prec hr eps_pos.le i)
  change Mom1 _ _ (ofMoments true _ _).meanSh (ofMoments true _ _).mean (ofMoments true _ _).var at hM
  rw [hrd.1, hrd.2.1, hrd.2.2] at hM
  exact hM

/-- **C70.** The first pass with damping one and any power leaves mean and variance of the smoother, if all functions are affine: they do
not depend on the power. -/
theorem C70_first_pass (hm : Models env e sys ys N c) (hr : c.Regular) (hγ : c.γ = 1) {a b : ℝ} (hκ : c.κ.Affine a b) {A B : ℕ → ℝ}
    (hτ : ∀ i, (c.τ i).Affine (A i) (B i)) (ht : c.Heard A (N - 1)) (h : Heap) :
    ∃ h1 h2, graph env N 1 e sys ys h = (.ok (List.range' h.size N), h1) ∧ epFwdBack env (List.range' h.size N) h1 = (.ok (), h2) ∧
      ∀ i, i < N → Mom1 env (h2.get (h.size + i)).marginal true (c.smoothed (1 / 10 ^ 10) (N - 1) i).1
        (c.smoothed (1 / 10 ^ 10) (N - 1) i).2 := by
  obtain ⟨h1, e1, s1⟩ := Sim.start hm h
  obtain ⟨h2, e2, s2⟩ := s1.pass hm hr
  refine ⟨h1, h2, e1, e2, fun i hi => ?_⟩
  obtain ⟨n, rfl⟩ : ∃ n, N = n + 1 := ⟨N - 1, by omega⟩
  rw [Nat.add_sub_cancel] at ht
  refine mom_smoothed hr (by omega) (s2.isNode hm hi).M ?_
  rw [Chain.first_pass_power hr hγ hκ hτ ht]
  dsimp only
  rw [if_pos hi]
  rfl

/-- Filter and smoother do not know the power. -/
theorem filtered_power (c : Chain) (α ε : ℝ) (i : ℕ) : Chain.filtered { c with α := α } ε i = c.filtered ε i := by
  induction i with
  | zero => rfl
  | succ i ih => simp only [Chain.filtered, ih]; rfl

theorem smoothed_power (c : Chain) (α ε : ℝ) (n i : ℕ) : Chain.smoothed { c with α := α } ε n i = c.smoothed ε n i := by
  unfold Chain.smoothed
  induction n - i with
  | zero => exact filtered_power c α ε n
  | succ k ih => simp only [Chain.smoothedBack, ih, filtered_power]; rfl

/-- **C70.** Two estimators that differ in the power: after the first pass corresponding nodes read the same mean and the same variance. -/
theorem C70_two_powers {e' : Estimator} {α' : ℝ} (hm : Models env e sys ys N c) (hm' : Models env e' sys ys N { c with α := α' })
    (hr : c.Regular) (hα' : 0 < α') (hγ : c.γ = 1) {a b : ℝ} (hκ : c.κ.Affine a b) {A B : ℕ → ℝ} (hτ : ∀ i, (c.τ i).Affine (A i) (B i))
    (ht : c.Heard A (N - 1)) (ht' : Chain.Heard { c with α := α' } A (N - 1)) (h : Heap) :
    ∃ h1 h2 h1' h2', graph env N 1 e sys ys h = (.ok (List.range' h.size N), h1) ∧ epFwdBack env (List.range' h.size N) h1 = (.ok (), h2) ∧
      graph env N 1 e' sys ys h = (.ok (List.range' h.size N), h1') ∧ epFwdBack env (List.range' h.size N) h1' = (.ok (), h2') ∧
      ∀ i, i < N → (h2.get (h.size + i)).marginal.mean env = (h2'.get (h.size + i)).marginal.mean env ∧
        (h2.get (h.size + i)).marginal.cov env = (h2'.get (h.size + i)).marginal.cov env := by
  obtain ⟨h1, h2, e1, e2, e3⟩ := C70_first_pass hm hr hγ hκ hτ ht h
  have hr' : Chain.Regular { c with α := α' } := ⟨hα', hr.q, hr.r, hr.p0, hr.τ, hr.κ⟩
  obtain ⟨h1', h2', e1', e2', e3'⟩ := C70_first_pass hm' hr' hγ hκ hτ ht' h
  refine ⟨h1, h2, h1', h2', e1, e2, e1', e2', fun i hi => ?_⟩
  have k1 := e3 i hi
  have k2 := e3' i hi
  rw [smoothed_power] at k2
  exact ⟨k1.1.trans k2.1.symm, k1.2.trans k2.2.symm⟩

/-- **C70.** For powers of at most one the first pass is the last: every further sequence of updates leaves all nodes exactly as they are. -/
theorem C70_converged (hm : Models env e sys ys N c) (hr : c.Regular) (hα : c.α ≤ 1) (hγ : c.γ = 1) {a b : ℝ} (hκ : c.κ.Affine a b)
    {A B : ℕ → ℝ} (hτ : ∀ i, (c.τ i).Affine (A i) (B i)) (ht : c.Heard A (N - 1)) (h : Heap) :
    ∃ h1 h2, graph env N 1 e sys ys h = (.ok (List.range' h.size N), h1) ∧ epFwdBack env (List.range' h.size N) h1 = (.ok (), h2) ∧
      ∀ calls : List (Upd × ℕ), (∀ k ∈ calls, k.2 < N) →
        Executes env (calls.map fun k => (k.1, h.size + k.2)) h2 (.ok ()) h2 := by
  obtain ⟨h1, e1, s1⟩ := Sim.start hm h
  obtain ⟨h2, e2, s2⟩ := s1.pass hm hr
  refine ⟨h1, h2, e1, e2, fun calls hk => ?_⟩
  obtain ⟨n, rfl⟩ : ∃ n, N = n + 1 := ⟨N - 1, by have := hm.two; omega⟩
  rw [Nat.add_sub_cancel] at ht
  rw [Chain.first_pass_power hr hγ hκ hτ ht] at s2
  obtain ⟨h3, -, x3, s3⟩ := Sim.steps hm hr calls hk s2
  rw [Chain.steps_fixed_power hr hα hγ hκ hτ ht (fun j hj => if_pos (by omega)) calls hk] at s3
  have : h3 = h2 := Sim.unique hm.length s2 s3 fun i hi => by
    rw [if_pos hi]
    show (c.smoothedVals n i).M.sh = true
    rw [Chain.smoothedVals_M c (by omega)]; rfl
  rw [this] at x3
  exact x3

/-- Every further pass. -/
theorem passes_of_converged {h1 h2 : Heap} {rs : List ℕ} (e2 : epFwdBack env rs h1 = (.ok (), h2)) (e3 : epFwdBack env rs h2 = (.ok (), h2))
    (n : ℕ) : PyM.forEach (List.range (n + 1)) (fun _ => epFwdBack env rs) h1 = (.ok (), h2) := by
  have hrep : ∀ l : List ℕ, PyM.forEach l (fun _ => epFwdBack env rs) h2 = (.ok (), h2) := by
    intro l
    induction l with
    | nil => rfl
    | cons x xs ih => rw [PyM.forEach, PyM.bind_ok e3]; exact ih
  rw [List.range_succ_eq_map, PyM.forEach, PyM.bind_ok e2]
  exact hrep _

/-- The measurements make the filter precise enough. -/
theorem heard_of_bound (hr : c.Regular) {a b : ℝ} (hκ : c.κ.Affine a b) {A : ℕ → ℝ}
    (hc : 1 ≤ c.α ∨ a ≠ 0 ∧ ∀ i, A i ^ 2 * (c.r / a ^ 2) + c.q / c.α ≤ 10 ^ 10) (n : ℕ) : c.Heard A n := by
  have hα0 := hr.α
  have hr0 := hr.r
  have hq := hr.q
  rcases hc with h1 | ⟨ha, h1⟩
  · exact Chain.heard_of_one_le hr h1 A n
  · intro i hi
    have hp := Chain.predict_pos hr i (Chain.before_pos hr eps_pos.le i)
    have hd := damp_pos eps_pos.le hp
    have k := (c.correct_affine hκ hr0 i hd.1).1
    rw [← Chain.filtered_eq] at k
    have hf : 0 < (c.filtered eps i).2 := Chain.filtered_pos hr eps_pos.le i
    have k2 : a ^ 2 / c.r ≤ 1 / (c.filtered eps i).2 := by
      have : 0 < 1 / (Chain.damp eps (c.predict i (c.before eps i))).2 := one_div_pos.2 hd.1
      linarith
    have k3 : (c.filtered eps i).2 ≤ c.r / a ^ 2 := by
      have ha2 : 0 < a ^ 2 := by positivity
      rw [div_le_div_iff₀ hr0 hf, one_mul] at k2
      rw [le_div_iff₀ ha2]
      linarith
    have k4 : A (i + 1) ^ 2 * (c.filtered eps i).2 + c.q / c.α ≤ 10 ^ 10 := by
      have := mul_le_mul_of_nonneg_left k3 (sq_nonneg (A (i + 1)))
      have := h1 (i + 1)
      linarith
    have k5 : 0 < A (i + 1) ^ 2 * (c.filtered eps i).2 + c.q / c.α := by positivity
    have k6 := one_div_le_one_div_of_le k5 k4
    have k7 : (1 / 10 ^ 10 : ℝ) * (1 - c.α) ≤ 1 / 10 ^ 10 := by
      have : 0 < (1 / 10 ^ 10 : ℝ) * c.α := by positivity
      linarith
    exact k7.trans k6

/-- **C70.** For unscented transforms and affine functions: whatever the power, the first pass leaves mean and variance of the smoother
(with a factor of precision `10⁻¹⁰` at every prediction); if the power is at most one, all further passes leave the nodes as they are. -/
theorem C70_unscented {P P' : UTParams} {α q r m0 p0 g₁ g₀ : ℝ} {A B : ℕ → ℝ} {u u' : UT} {y : ℕ → ℝ}
    (hcalm : ∀ A : Matrix (Fin 1) (Fin 1) ℝ, env.illPos A = false)
    (hu : UT.init 1 P.a P.b P.k = .ok u) (hu' : UT.init 1 P'.a P'.b P'.k = .ok u') (hP : P.Good) (hP' : P'.Good)
    (hF : ∀ i : ℕ, OnColumns (fun x => sys.transition x (some (i * sys.dt)) (some 0)) (fun x => A i * x + B i))
    (hG : OnColumns (fun x => sys.measurement x none none) (fun x => g₁ * x + g₀)) (hQ : sys.Q = .m (m1 q)) (hR : sys.R = .m (m1 r))
    (h0 : Mom1 env sys.initState false m0 p0) (hα : 0 < α) (hq : 0 < q) (hr : 0 < r) (hp : 0 < p0) (hN : 2 ≤ N) (hlen : ys.length = N)
    (hy : ∀ i a, ys[i]? = some a → IsVec a.squeeze (v1 (y i)))
    (hc : 1 ≤ α ∨ g₁ ≠ 0 ∧ ∀ i, A i ^ 2 * (r / g₁ ^ 2) + q / α ≤ 10 ^ 10) (h : Heap) :
    ∃ h1 h2, graph env N 1 ⟨u.transform env, u'.transform env, some sys.Q, some sys.R, α, 1⟩ sys ys h = (.ok (List.range' h.size N), h1) ∧
      epFwdBack env (List.range' h.size N) h1 = (.ok (), h2) ∧
      (∀ i, i < N → Mom1 env (h2.get (h.size + i)).marginal true
        ((unscentedChain P P' 1 1 q r m0 p0 (fun i x => A i * x + B i) (fun x => g₁ * x + g₀) y).smoothed (1 / 10 ^ 10) (N - 1) i).1
        ((unscentedChain P P' 1 1 q r m0 p0 (fun i x => A i * x + B i) (fun x => g₁ * x + g₀) y).smoothed (1 / 10 ^ 10) (N - 1) i).2) ∧
      (α ≤ 1 → ∀ n, PyM.forEach (List.range (n + 1)) (fun _ => epFwdBack env (List.range' h.size N)) h1 = (.ok (), h2)) := by
  have hm := unscented_models (γ := 1) (α := α) hcalm hu hu' hP hP' hF hG hQ hR h0 hN hlen hy
  have hreg := unscented_regular (γ := 1) (m0 := m0) hP hP' hα hq hr hp (fun i x => A i * x + B i) (fun x => g₁ * x + g₀) y
  have hκ := unscented_affine (b := P'.b) hP'.spread g₁ g₀
  have hτ := fun i => unscented_affine (b := P.b) hP.spread (A i) (B i)
  have ht := fun n => heard_of_bound (A := A) hreg hκ hc n
  obtain ⟨h1, h2, e1, e2, e3⟩ := C70_first_pass hm hreg rfl hκ hτ (ht _) h
  refine ⟨h1, h2, e1, e2, fun i hi => ?_, fun hα1 n => ?_⟩
  · have k := e3 i hi
    rw [← smoothed_power _ 1] at k
    exact k
  · obtain ⟨h1', h2', e1', e2', e3'⟩ := C70_converged hm hreg hα1 rfl hκ hτ (ht _) h
    obtain rfl : h1' = h1 := congrArg Prod.snd (e1'.symm.trans e1)
    obtain rfl : h2' = h2 := congrArg Prod.snd (e2'.symm.trans e2)
    have x := e3' (passCalls N) passCalls_lt
    rw [passCalls_map] at x
    obtain ⟨x1, x2⟩ := executes_fun x (C39_pass_order (env := env) (List.range' h.size N) h2')
    exact passes_of_converged e2' (Prod.ext x1.symm x2.symm) n

/-- A random walk observed in noise, with power 1/2 and with power 2. -/
example (α y₀ y₁ : ℝ) (hα : α = 1 / 2 ∨ α = 2) (h : Heap) : ∃ e sys h1 h2, e.power = α ∧
    sys.measurement (.v (v1 2)) none none = .ok (.v (v1 7)) ∧
    graph calmEnv 2 1 e sys [.s y₀, .s y₁] h = (.ok [h.size, h.size + 1], h1) ∧
    epFwdBack calmEnv [h.size, h.size + 1] h1 = (.ok (), h2) ∧
    (∃ m v, 0 < v ∧ Mom1 calmEnv (h2.get h.size).marginal true m v) := by
  obtain ⟨u, hu⟩ := init_ok params_trans
  obtain ⟨u', hu'⟩ := init_ok params_meas
  have h0 : 0 < α := by rcases hα with rfl | rfl <;> norm_num
  obtain ⟨h1, h2, e1, e2, e3, -⟩ := C70_unscented (env := calmEnv) (N := 2) (ys := [.s y₀, .s y₁]) (g₁ := 3) (g₀ := 1) (A := fun _ => 2)
    (B := fun _ => 0) (α := α)
    (sys := { transition := fun x _ _ => .ok (x.map fun a => 2 * a + 0), measurement := fun x _ _ => .ok (x.map fun a => 3 * a + 1),
              Q := .m (m1 1), R := .m (m1 10), initState := sG 0 5, dt := 1 })
    (y := fun i => if i = 0 then y₀ else y₁) (fun _ => rfl) hu hu' params_trans params_meas (by
      intro i M X
      simp only [Arr.map]
      exact congrArg (fun z => Except.ok (Arr.m z)) (funext fun i => funext fun j => by rw [Subsingleton.elim j 0]; rfl)) (by
      intro M X
      simp only [Arr.map]
      exact congrArg (fun z => Except.ok (Arr.m z)) (funext fun i => funext fun j => by rw [Subsingleton.elim j 0]; rfl))
    rfl rfl (mom1_sG _ _) h0 one_pos (by norm_num) (by norm_num) le_rfl rfl (by
      intro i a hi
      match i, hi with
      | 0, hi => simp only [List.getElem?_cons_zero, Option.some.injEq] at hi; rw [← hi]; exact isVec_s y₀
      | 1, hi => simp only [List.getElem?_cons_succ, List.getElem?_cons_zero, Option.some.injEq] at hi; rw [← hi]; exact isVec_s y₁)
    (.inr ⟨by norm_num, fun _ => by rcases hα with rfl | rfl <;> norm_num⟩) h
  refine ⟨_, _, h1, h2, ?_, ?_, e1, e2, _, _, ?_, e3 0 (by norm_num)⟩
  · rfl
  · refine congrArg (fun f : Fin 1 → ℝ => Except.ok (Arr.v f)) (funext fun _ => ?_)
    simp only [v1]
    norm_num
  · exact (Chain.smoothed_pos (unscented_regular params_trans params_meas one_pos one_pos (by norm_num) (by norm_num) _ _ _)
      (by positivity) (by norm_num)).1

end Verif
