import Verif.Props.Bounded
import Verif.Props.Calibrate

/-!
# The errors of the filter on simulated data of the growth model (C117)

The states of the growth model and the estimates of the filter are dominated, run by run, by sums of squares of the drawn numbers; the
expectation of these sums does not grow with time.
-/

namespace Verif

open Matrix MeasureTheory

variable {env : Env} {N : ℕ} {Ω : Type*} [MeasurableSpace Ω] {ℙ : Measure Ω} {rng : Ω → Rng}

/-- The laws that the growth model is simulated with (`Systems/UniformNonlinearGrowthModel.py`, 31-42). -/
def growthSimLaws : Laws 1 1 := ⟨v1 0, m1 5, m1 1, m1 10⟩

/-- One transition of the growth model (`Systems/UniformNonlinearGrowthModel.py`, `f`), written out. -/
noncomputable def growthMap (t : ℝ) (x : Fin 1 → ℝ) : Fin 1 → ℝ := fun i => 0.5 * x i + 25 * x i / (1 + x i ^ 2) + 8 * Real.cos (1.2 * t)

/-- The true state after `i` transitions. -/
noncomputable def growthState (r : Rng) (i : ℕ) : ℝ := trajectory r growthSimLaws growthMap 1 i 0

/-- Measurement number `i` (`Systems/UniformNonlinearGrowthModel.py`, `h`), written out. -/
noncomputable def growthObs (r : Rng) (i : ℕ) : ℝ := growthState r (i + 1) ^ 2 / 20 + r (2 * i + 2) 1 0 (m1 10) 0

/-- The square of the noise of transition `i`. -/
private noncomputable def sq (r : Rng) (i : ℕ) : ℝ := r (2 * i + 1) 1 0 (m1 1) 0 ^ 2

/-- The square of the noise of measurement `i`. -/
private noncomputable def sqObs (r : Rng) (i : ℕ) : ℝ := r (2 * i + 2) 1 0 (m1 10) 0 ^ 2

/-- A bound on the square of state `i`. -/
private noncomputable def stateSq (r : Rng) : ℕ → ℝ
  | 0 => r 0 1 (v1 0) (m1 5) 0 ^ 2
  | i + 1 => stateSq r i / 2 + 1681 + 4 * sq r i

/-- A bound on the size of state `i`. -/
private noncomputable def stateAbs (r : Rng) : ℕ → ℝ
  | 0 => (1 + r 0 1 (v1 0) (m1 5) 0 ^ 2) / 2
  | i + 1 => stateAbs r i / 2 + 41 / 2 + (1 + sq r i) / 2

/-- A bound on the size of measurement `i`. -/
private noncomputable def obsAbs (r : Rng) (i : ℕ) : ℝ := stateSq r (i + 1) / 20 + (1 + sqObs r i) / 2

/-- A bound on the size of the mean number `i` of the filter. -/
private noncomputable def meanAbs (r : Rng) : ℕ → ℝ
  | 0 => 41 / 2 + 2 / 3 * obsAbs r 0
  | i + 1 => meanAbs r i / 2 + 41 / 2 + 2 / 3 * obsAbs r (i + 1)

private theorem abs_le_half (x : ℝ) : |x| ≤ (1 + x ^ 2) / 2 := by
  rw [abs_le]; constructor <;> nlinarith [sq_nonneg (x - 1), sq_nonneg (x + 1)]

private theorem growthState_succ (r : Rng) (i : ℕ) : growthState r (i + 1) =
    0.5 * growthState r i + 25 * growthState r i / (1 + growthState r i ^ 2) + 8 * Real.cos (1.2 * (i * 1)) + r (2 * i + 1) 1 0 (m1 1) 0 := rfl

private theorem bounded_part (x t : ℝ) : |25 * x / (1 + x ^ 2) + 8 * Real.cos t| ≤ 41 / 2 := by
  have h1 : |25 * x / (1 + x ^ 2)| ≤ 25 / 2 := by
    have hp : (0 : ℝ) < 1 + x ^ 2 := by positivity
    rw [abs_div, abs_of_pos hp, div_le_iff₀ hp, abs_mul]
    have := abs_le_half x
    rw [abs_of_pos (by norm_num : (0 : ℝ) < 25)]
    nlinarith
  have h2 : |8 * Real.cos t| ≤ 8 := by
    rw [abs_mul, abs_of_pos (by norm_num : (0 : ℝ) < 8)]
    have := Real.abs_cos_le_one t
    linarith
  exact (abs_add_le _ _).trans (by linarith)

private theorem abs_state_le (r : Rng) : ∀ i, |growthState r i| ≤ stateAbs r i
  | 0 => abs_le_half _
  | i + 1 => by
    have ih := abs_state_le r i
    rw [growthState_succ, stateAbs, sq]
    have h1 := bounded_part (growthState r i) (1.2 * (i * 1))
    have h2 := abs_le_half (r (2 * i + 1) 1 0 (m1 1) 0)
    rw [add_assoc (0.5 * growthState r i)]
    refine (abs_add_le _ _).trans (add_le_add ((abs_add_le _ _).trans (add_le_add ?_ h1)) h2)
    rw [abs_mul, abs_of_pos (by norm_num : (0 : ℝ) < 0.5)]
    linarith

private theorem sq_state_le (r : Rng) : ∀ i, growthState r i ^ 2 ≤ stateSq r i
  | 0 => le_rfl
  | i + 1 => by
    have ih := sq_state_le r i
    rw [growthState_succ, stateSq, sq, add_assoc (0.5 * growthState r i)]
    set x := growthState r i
    have h1 := bounded_part x (1.2 * (i * 1))
    set d := 25 * x / (1 + x ^ 2) + 8 * Real.cos (1.2 * (i * 1))
    set w := r (2 * i + 1) 1 0 (m1 1) 0
    have h2 : d ^ 2 ≤ 1681 / 4 := by
      have := sq_le_sq' (abs_le.1 h1).1 (abs_le.1 h1).2
      linarith
    have : (0.5 * x + d + w) ^ 2 ≤ x ^ 2 / 2 + 4 * d ^ 2 + 4 * w ^ 2 := by
      nlinarith [sq_nonneg (0.5 * x - (d + w)), sq_nonneg (d - w)]
    linarith

private theorem abs_obs_le (r : Rng) (i : ℕ) : |growthObs r i| ≤ obsAbs r i := by
  have h1 := sq_state_le r (i + 1)
  refine (abs_add_le _ _).trans (add_le_add ?_ (abs_le_half _))
  rw [abs_of_nonneg (by positivity)]
  linarith

/-- The filter on data `y` of the growth model: its mean number `i`. -/
private theorem abs_mean_le (r : Rng) {y : ℕ → ℝ} (hy : ∀ i, |y i| ≤ |growthObs r i|) :
    ∀ i, |((growthChain 1 1 y).filtered 0 i).1| ≤ meanAbs r i
  | 0 => by
    have h1 := growth_step y 0 (0, 5) (by norm_num)
    have h2 := (hy 0).trans (abs_obs_le r 0)
    rw [show |((0, 5) : ℝ × ℝ).1| = 0 from abs_zero] at h1
    refine h1.trans ?_
    rw [meanAbs]
    linarith
  | i + 1 => by
    have ih := abs_mean_le r hy i
    have h1 := growth_step y (i + 1) _ (Chain.filtered_pos (growthChain_regular one_pos 1 y) le_rfl i)
    have h2 := (hy (i + 1)).trans (abs_obs_le r (i + 1))
    refine h1.trans ?_
    rw [meanAbs]
    linarith

/-! ## Expectations -/

variable [IsProbabilityMeasure ℙ]

omit [IsProbabilityMeasure ℙ] in
private theorem draw_sq (h : FairDraws ℙ rng) (j : ℕ) {v : ℝ} (hv : 0 ≤ v) :
    Integrable (fun ω => rng ω j 1 (v1 0) (m1 v) 0 ^ 2) ℙ ∧ ∫ ω, rng ω j 1 (v1 0) (m1 v) 0 ^ 2 ∂ℙ = v := by
  have hp : (m1 v).PosSemidef := by
    have : (m1 v : Matrix (Fin 1) (Fin 1) ℝ) = diagonal fun _ => v := by ext i j; rw [Subsingleton.elim i j, diagonal_apply_eq]; rfl
    rw [this]; exact PosSemidef.diagonal fun _ => hv
  refine ⟨(h.finite j 1 (v1 0) (m1 v) hp 0).integrable_sq, ?_⟩
  have := h.cov j 1 (v1 0) (m1 v) hp 0 0
  rw [show (m1 v) 0 0 = v from rfl] at this
  refine Eq.trans ?_ this
  refine integral_congr_ae (.of_forall fun ω => ?_)
  have e : (v1 0 : Fin 1 → ℝ) 0 = 0 := rfl
  simp only [e, sub_zero, pow_two]

private theorem affine_expect {f g : Ω → ℝ} (hf : Integrable f ℙ) (hg : Integrable g ℙ) (a b c : ℝ) :
    Integrable (fun ω => a * f ω + b + c * g ω) ℙ ∧ ∫ ω, (a * f ω + b + c * g ω) ∂ℙ = a * ∫ ω, f ω ∂ℙ + b + c * ∫ ω, g ω ∂ℙ := by
  have h1 := hf.const_mul a
  have h2 : Integrable (fun _ : Ω => b) ℙ := integrable_const b
  have h3 := hg.const_mul c
  refine ⟨(h1.add h2).add h3, ?_⟩
  rw [integral_add (f := fun ω => a * f ω + b) (h1.add h2) h3, integral_add h1 h2, integral_const_mul, integral_const_mul, integral_const]
  simp

private theorem stateSq_expect (h : FairDraws ℙ rng) :
    ∀ i, Integrable (fun ω => stateSq (rng ω) i) ℙ ∧ ∫ ω, stateSq (rng ω) i ∂ℙ ≤ 3370
  | 0 => by
    obtain ⟨h1, h2⟩ := draw_sq h 0 (v := 5) (by norm_num)
    exact ⟨h1, (h2.trans_le (by norm_num) : _ ≤ (3370 : ℝ))⟩
  | i + 1 => by
    obtain ⟨h1, h2⟩ := stateSq_expect h i
    obtain ⟨h3, h4⟩ := draw_sq h (2 * i + 1) (v := 1) (by norm_num)
    rw [← v1_zero] at h3 h4
    have e : (fun ω => stateSq (rng ω) (i + 1)) = fun ω => 1 / 2 * stateSq (rng ω) i + 1681 + 4 * rng ω (2 * i + 1) 1 0 (m1 1) 0 ^ 2 := by
      ext ω; rw [stateSq, sq]; ring
    obtain ⟨h5, h6⟩ := affine_expect h1 h3 (1 / 2) 1681 4
    rw [e]
    exact ⟨h5, by rw [h6, h4]; linarith⟩

private theorem stateAbs_expect (h : FairDraws ℙ rng) :
    ∀ i, Integrable (fun ω => stateAbs (rng ω) i) ℙ ∧ ∫ ω, stateAbs (rng ω) i ∂ℙ ≤ 43
  | 0 => by
    obtain ⟨h1, h2⟩ := draw_sq h 0 (v := 5) (by norm_num)
    have e : (fun ω => stateAbs (rng ω) 0) = fun ω => 1 / 2 * rng ω 0 1 (v1 0) (m1 5) 0 ^ 2 + 1 / 2 + 0 * rng ω 0 1 (v1 0) (m1 5) 0 ^ 2 := by
      ext ω; rw [stateAbs]; ring
    obtain ⟨h5, h6⟩ := affine_expect h1 h1 (1 / 2) (1 / 2) 0
    rw [e]
    exact ⟨h5, by rw [h6, h2]; norm_num⟩
  | i + 1 => by
    obtain ⟨h1, h2⟩ := stateAbs_expect h i
    obtain ⟨h3, h4⟩ := draw_sq h (2 * i + 1) (v := 1) (by norm_num)
    rw [← v1_zero] at h3 h4
    have e : (fun ω => stateAbs (rng ω) (i + 1)) = fun ω => 1 / 2 * stateAbs (rng ω) i + 21 + 1 / 2 * rng ω (2 * i + 1) 1 0 (m1 1) 0 ^ 2 := by
      ext ω; rw [stateAbs, sq]; ring
    obtain ⟨h5, h6⟩ := affine_expect h1 h3 (1 / 2) 21 (1 / 2)
    rw [e]
    exact ⟨h5, by rw [h6, h4]; linarith⟩

private theorem obsAbs_expect (h : FairDraws ℙ rng) (i : ℕ) :
    Integrable (fun ω => obsAbs (rng ω) i) ℙ ∧ ∫ ω, obsAbs (rng ω) i ∂ℙ ≤ 174 := by
  obtain ⟨h1, h2⟩ := stateSq_expect h (i + 1)
  obtain ⟨h3, h4⟩ := draw_sq h (2 * i + 2) (v := 10) (by norm_num)
  rw [← v1_zero] at h3 h4
  have e : (fun ω => obsAbs (rng ω) i) = fun ω => 1 / 20 * stateSq (rng ω) (i + 1) + 1 / 2 + 1 / 2 * rng ω (2 * i + 2) 1 0 (m1 10) 0 ^ 2 := by
    ext ω; rw [obsAbs, sqObs]; ring
  obtain ⟨h5, h6⟩ := affine_expect h1 h3 (1 / 20) (1 / 2) (1 / 2)
  rw [e]
  exact ⟨h5, by rw [h6, h4]; linarith⟩

private theorem meanAbs_expect (h : FairDraws ℙ rng) :
    ∀ i, Integrable (fun ω => meanAbs (rng ω) i) ℙ ∧ ∫ ω, meanAbs (rng ω) i ∂ℙ ≤ 273
  | 0 => by
    obtain ⟨h1, h2⟩ := obsAbs_expect h 0
    have e : (fun ω => meanAbs (rng ω) 0) = fun ω => 0 * obsAbs (rng ω) 0 + 41 / 2 + 2 / 3 * obsAbs (rng ω) 0 := by
      ext ω; rw [meanAbs]; ring
    obtain ⟨h5, h6⟩ := affine_expect h1 h1 0 (41 / 2) (2 / 3)
    rw [e]
    exact ⟨h5, by rw [h6]; linarith⟩
  | i + 1 => by
    obtain ⟨h1, h2⟩ := meanAbs_expect h i
    obtain ⟨h3, h4⟩ := obsAbs_expect h (i + 1)
    have e : (fun ω => meanAbs (rng ω) (i + 1)) = fun ω => 1 / 2 * meanAbs (rng ω) i + 41 / 2 + 2 / 3 * obsAbs (rng ω) (i + 1) := by
      ext ω; rw [meanAbs]; ring
    obtain ⟨h5, h6⟩ := affine_expect h1 h3 (1 / 2) (41 / 2) (2 / 3)
    rw [e]
    exact ⟨h5, by rw [h6]; linarith⟩

omit [IsProbabilityMeasure ℙ] in
private theorem expect_le {f D : Ω → ℝ} {B : ℝ} (h0 : ∀ ω, 0 ≤ f ω) (hf : ∀ ω, f ω ≤ D ω) (hD : Integrable D ℙ) (hB : ∫ ω, D ω ∂ℙ ≤ B) :
    ∫⁻ ω, ENNReal.ofReal (f ω) ∂ℙ ≤ ENNReal.ofReal B := by
  refine (lintegral_mono fun ω => ENNReal.ofReal_le_ofReal (hf ω)).trans ?_
  rw [← ofReal_integral_eq_lintegral_ofReal hD (.of_forall fun ω => (h0 ω).trans (hf ω))]
  exact ENNReal.ofReal_le_ofReal hB

/-! ## C117 -/

/-- **C117.** The growth model, simulated with draws that have the right means and covariances, and the unscented filter of the experiments
on the simulated measurements: no simulation and no filter fails, and at every one of the `N` times the expected distance of the reported
mean from the true state is at most 316, however long the simulation is. The expected square of the true state is at most 3370. -/
theorem C117_growth_filter (hfair : FairDraws ℙ rng) {u u' : UT} (hu : UT.init 1 1 2 3 = .ok u) (hu' : UT.init 1 1 2 2 = .ok u')
    (hN : 0 < N) : ∃ (sys : Sys) (data : Ω → List (Arr × Arr)) (fs : Ω → List Gaussian) (x m : Ω → ℕ → ℝ), UNGM.init = .ok sys ∧
      (∀ ω, simData env (rng ω) 1 1 sys N = .ok (data ω) ∧
        (KFS.init (u.transform env) sys (some (u'.transform env))).kalmanFilter env ((data ω).map Prod.snd) none 0 none = .ok (fs ω) ∧
        (data ω).length = N ∧ (fs ω).length = N ∧
        ∀ i, i < N → ∃ p g v, (data ω)[i]? = some p ∧ p.1 = .v (v1 (x ω i)) ∧ (fs ω)[i]? = some g ∧ Mom1 env g false (m ω i) v ∧ 0 < v ∧ v ≤ 940) ∧
      ∀ i, i < N → ∫⁻ ω, ENNReal.ofReal |m ω i - x ω i| ∂ℙ ≤ ENNReal.ofReal 316 ∧
        ∫⁻ ω, ENNReal.ofReal (x ω i ^ 2) ∂ℙ ≤ ENNReal.ofReal 3370 := by
  obtain ⟨sys, -, hsys, -⟩ := C78_growth (env := env) (fun _ _ _ _ _ => 0) 0
  have hsim : ∀ ω, ∃ data, simData env (rng ω) 1 1 sys N = .ok data ∧
      Follows false (rng ω) growthSimLaws growthMap (fun x i => x i ^ 2 / 20) 1 N data := fun ω => by
    obtain ⟨sys', data, h1, h2, h3⟩ := C78_growth (env := env) (rng ω) N
    rw [hsys] at h1
    cases h1
    exact ⟨data, h2, h3⟩
  choose data hd1 hd2 using hsim
  have hk : ∀ ω, ModelsKFS env (KFS.init (u.transform env) sys (some (u'.transform env))) ((data ω).map Prod.snd) N
      (growthChain 1 1 (growthObs (rng ω))) := fun ω => by
    rw [ungm_eq hsys]
    refine unscented_modelsKFS (P := ⟨1, 2, 3⟩) (P' := ⟨1, 2, 2⟩) hu hu' params_trans params_meas (fun i => ungm_f i none)
      (fun i => ungm_h (some (i * 1)) none) rfl rfl (mom1_sG _ _) (by rw [List.length_map, (hd2 ω).length]) fun i a hi => ?_
    rw [List.getElem?_map, Option.map_eq_some_iff] at hi
    obtain ⟨p, hp, rfl⟩ := hi
    have := (hd2 ω).measurement i p hp
    rw [show p.2 = .v (v1 (growthObs (rng ω) i)) from this.trans (congrArg Arr.v (by ext j; rw [Subsingleton.elim j 0]; rfl))]
    exact .inr rfl
  have hrun := fun ω => C40_kalman (hk ω) (growthChain_regular one_pos 1 _) hN
  choose fs rs h1 h2 h3 h4 h5 h6 using hrun
  refine ⟨sys, data, fs, fun ω i => growthState (rng ω) (i + 1), fun ω i => ((growthChain 1 1 (growthObs (rng ω))).filtered 0 i).1, hsys,
    fun ω => ⟨hd1 ω, h1 ω, (hd2 ω).length, h3 ω, fun i hi => ?_⟩, fun i hi => ⟨?_, ?_⟩⟩
  · obtain ⟨g, e1, e2⟩ := h5 ω i hi
    have hi' : i < (data ω).length := by rw [(hd2 ω).length]; exact hi
    refine ⟨_, g, _, List.getElem?_eq_getElem hi', ?_, e1, e2, Chain.filtered_pos (growthChain_regular one_pos 1 _) le_rfl i,
      Chain.filtered_bounded (B := 940) (growthChain_regular one_pos 1 _) (growthChain_contracts 1 1 _) (by norm_num)
        (show (5 : ℝ) ≤ 940 by norm_num) (by norm_num) i⟩
    exact ((hd2 ω).state i _ (List.getElem?_eq_getElem hi')).trans (congrArg Arr.v (by ext j; rw [Subsingleton.elim j 0]; rfl))
  · obtain ⟨a1, a2⟩ := meanAbs_expect hfair i
    obtain ⟨b1, b2⟩ := stateAbs_expect hfair (i + 1)
    refine expect_le (D := fun ω => meanAbs (rng ω) i + stateAbs (rng ω) (i + 1)) (fun ω => abs_nonneg _)
      (fun ω => (abs_sub _ _).trans (add_le_add (abs_mean_le (rng ω) (fun _ => le_rfl) i) (abs_state_le (rng ω) (i + 1)))) (a1.add b1) ?_
    rw [integral_add a1 b1]
    linarith
  · obtain ⟨a1, a2⟩ := stateSq_expect hfair (i + 1)
    exact expect_le (fun ω => sq_nonneg _) (fun ω => sq_state_le (rng ω) (i + 1)) a1 a2

/-- Independent standard normal numbers: after ten thousand steps the filter is still, on average, within 316 of the true state. -/
example : ∃ (u u' : UT) (sys : Sys) (data : (ℕ × ℕ → ℝ) → List (Arr × Arr)) (fs : (ℕ × ℕ → ℝ) → List Gaussian) (x m : (ℕ × ℕ → ℝ) → ℝ),
    UNGM.init = .ok sys ∧ (∀ z, simData calmEnv (drawsFrom z) 1 1 sys 10000 = .ok (data z) ∧
      (KFS.init (u.transform calmEnv) sys (some (u'.transform calmEnv))).kalmanFilter calmEnv ((data z).map Prod.snd) none 0 none = .ok (fs z) ∧
      ∃ p g v, (data z)[9999]? = some p ∧ p.1 = .v (v1 (x z)) ∧ (fs z)[9999]? = some g ∧ Mom1 calmEnv g false (m z) v) ∧
    ∫⁻ z, ENNReal.ofReal |m z - x z| ∂standardNormals ≤ ENNReal.ofReal 316 := by
  obtain ⟨u, hu⟩ := init_ok params_trans
  obtain ⟨u', hu'⟩ := init_ok params_meas
  obtain ⟨sys, data, fs, x, m, h1, h2, h3⟩ := C117_growth_filter (env := calmEnv) C85_normal_draws hu hu' (N := 10000) (by norm_num)
  refine ⟨u, u', sys, data, fs, fun z => x z 9999, fun z => m z 9999, h1, fun z => ?_, (h3 9999 (by norm_num)).1⟩
  obtain ⟨a1, a2, -, -, a3⟩ := h2 z
  obtain ⟨p, g, v, b1, b2, b3, b4, -⟩ := a3 9999 (by norm_num)
  exact ⟨a1, a2, p, g, v, b1, b2, b3, b4⟩

end Verif
