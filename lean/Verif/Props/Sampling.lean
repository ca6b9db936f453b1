import Verif.Lemmas.Expectation
import Verif.Lemmas.Sampling
import Verif.Props.Accuracy
import Mathlib.Probability.HasLawExists

/-!
# The Monte Carlo transform estimates the moments: C69
-/

namespace Verif

open Matrix MeasureTheory ProbabilityTheory Filter Topology

variable {env : Env} {n k : ℕ}

theorem mc_rows (draw : Draw) {N : ℕ} (hN : 2 ≤ N) (hnk : n + k ≠ 1) {g : Gaussian} {μ : Fin n → ℝ} {P : Matrix (Fin n) (Fin n) ℝ}
    (hg : HasMoments env g μ P) {func : Func} {F : (Fin n → ℝ) → Fin k → ℝ} (hf : OnRows func F) :
    mcTransform env draw N func g = .ok (.v fun j => (∑ l, F (draw N μ P l) j) / N,
      .m (of fun i j => covEntry (fun l => F (draw N μ P l) i) fun l => F (draw N μ P l) j),
      .m (of fun i j => covEntry (fun l => draw N μ P l i) fun l => F (draw N μ P l) j)) := by
  have hN0 : N ≠ 0 := by omega
  have hN1 : ¬ N ≤ 1 := by omega
  simp only [mcTransform, sample_ok hg, hf N, ok_bind]
  simp only [meanRows, if_neg hN0, ok_bind, Arr.T_m, sampleCovariance, Arr.atleast2d_m, dif_pos, if_neg hN1, if_neg hnk,
    py_pure]
  rfl

/-- **C69** (consistency). Let the draws be independent with the distribution of the state, and let the components of the function be
square integrable. Then almost surely the transform succeeds for every number of samples `N ≥ 2`, and as `N` grows its mean,
covariance and cross-covariance converge to the true mean, covariance and cross-covariance of the transformed state. -/
theorem C69_monte_carlo_consistent {Ω : Type*} [MeasurableSpace Ω] {p : Measure Ω} {draw : Ω → Draw} {μ : Fin n → ℝ}
    {P : Matrix (Fin n) (Fin n) ℝ} (hdraw : IidDraws p μ P draw) (hnk : n + k ≠ 1) {g : Gaussian} (hg : HasMoments env g μ P)
    {func : Func} {F : (Fin n → ℝ) → Fin k → ℝ} (hf : OnRows func F) (hF : ∀ j, SquareIntegrable μ P fun x => F x j) :
    ∀ᵐ ω ∂p, ∃ (m : ℕ → Fin k → ℝ) (S : ℕ → Matrix (Fin k) (Fin k) ℝ) (C : ℕ → Matrix (Fin n) (Fin k) ℝ),
      (∀ N, 2 ≤ N → mcTransform env (draw ω) N func g = .ok (.v (m N), .m (S N), .m (C N))) ∧
      (∀ j, Tendsto (fun N => m N j) atTop (𝓝 (expect μ P fun x => F x j))) ∧
      (∀ i j, Tendsto (fun N => S N i j) atTop
        (𝓝 (expect μ P fun x => (F x i - expect μ P fun y => F y i) * (F x j - expect μ P fun y => F y j)))) ∧
      ∀ i j, Tendsto (fun N => C N i j) atTop (𝓝 (expect μ P fun x => (x i - μ i) * (F x j - expect μ P fun y => F y j))) := by
  obtain ⟨X, hX, hind, hXd⟩ := hdraw
  have hm : ∀ j, Measurable fun x : EuclideanSpace ℝ (Fin n) => F x.ofLp j := fun j => (hF j).1.comp (by fun_prop)
  have hc : ∀ i : Fin n, Measurable fun x : EuclideanSpace ℝ (Fin n) => x.ofLp i := fun i => by fun_prop
  have a1 := fun j => mean_tendsto hX hind (hm j) ((hF j).2.integrable (by norm_num))
  have a2 := fun i j => cov_tendsto hX hind (hm i) (hm j) (hF i).2 (hF j).2
  have a3 := fun i j => cov_tendsto hX hind (hc i) (hm j) (memLp_c1 i) (hF j).2
  filter_upwards [ae_all_iff.2 a1, ae_all_iff.2 fun i => ae_all_iff.2 (a2 i), ae_all_iff.2 fun i => ae_all_iff.2 (a3 i)] with ω b1 b2 b3
  refine ⟨_, _, _, fun N hN => mc_rows (draw ω) hN hnk hg hf, fun j => ?_, fun i j => ?_, fun i j => ?_⟩
  · refine (b1 j).congr fun N => ?_
    simp only [hXd ω N]; rfl
  · refine (b2 i j).congr fun N => ?_
    simp only [of_apply, hXd ω N]; rfl
  · have := b3 i j
    rw [show ∫ y, y.ofLp i ∂(multivariateGaussian (WithLp.toLp 2 μ) P) = μ i from expect_coord i] at this
    refine this.congr fun N => ?_
    simp only [of_apply, hXd ω N]; rfl

/-- **C69** (unbiasedness). For every number of samples `N ≥ 2` the expectation, over the draws, of each result of the transform is the
true moment. -/
theorem C69_monte_carlo_unbiased {Ω : Type*} [MeasurableSpace Ω] {p : Measure Ω} {draw : Ω → Draw} {μ : Fin n → ℝ}
    {P : Matrix (Fin n) (Fin n) ℝ} (hdraw : IidDraws p μ P draw) (hnk : n + k ≠ 1) {g : Gaussian} (hg : HasMoments env g μ P)
    {func : Func} {F : (Fin n → ℝ) → Fin k → ℝ} (hf : OnRows func F) (hF : ∀ j, SquareIntegrable μ P fun x => F x j) {N : ℕ} (hN : 2 ≤ N) :
    ∃ (m : Ω → Fin k → ℝ) (S : Ω → Matrix (Fin k) (Fin k) ℝ) (C : Ω → Matrix (Fin n) (Fin k) ℝ),
      (∀ ω, mcTransform env (draw ω) N func g = .ok (.v (m ω), .m (S ω), .m (C ω))) ∧
      (∀ j, ∫ ω, m ω j ∂p = expect μ P fun x => F x j) ∧
      (∀ i j, ∫ ω, S ω i j ∂p = expect μ P fun x => (F x i - expect μ P fun y => F y i) * (F x j - expect μ P fun y => F y j)) ∧
      ∀ i j, ∫ ω, C ω i j ∂p = expect μ P fun x => (x i - μ i) * (F x j - expect μ P fun y => F y j) := by
  obtain ⟨X, hX, hind, hXd⟩ := hdraw
  have hm : ∀ j, Measurable fun x : EuclideanSpace ℝ (Fin n) => F x.ofLp j := fun j => (hF j).1.comp (by fun_prop)
  have hc : ∀ i : Fin n, Measurable fun x : EuclideanSpace ℝ (Fin n) => x.ofLp i := fun i => by fun_prop
  refine ⟨_, _, _, fun ω => mc_rows (draw ω) hN hnk hg hf, fun j => ?_, fun i j => ?_, fun i j => ?_⟩
  · refine Eq.trans ?_ (mean_unbiased hX (hm j) ((hF j).2.integrable (by norm_num)) (N := N) (by omega))
    simp only [hXd]; rfl
  · refine Eq.trans ?_ (cov_unbiased hX hind (hm i) (hm j) (hF i).2 (hF j).2 hN)
    simp only [of_apply, hXd]; rfl
  · have := cov_unbiased hX hind (hc i) (hm j) (memLp_c1 i) (hF j).2 hN
    rw [show ∫ y, y.ofLp i ∂(multivariateGaussian (WithLp.toLp 2 μ) P) = μ i from expect_coord i] at this
    refine Eq.trans ?_ this
    simp only [of_apply, hXd]; rfl

/-- **C69** (size of the error). For every number of samples `N ≥ 2` the mean squared error of a component of the mean is exactly the
variance of that component of the transformed state, divided by `N`; hence the error is at least `ε` with probability at most that
number divided by `ε²`. -/
theorem C69_monte_carlo_error {Ω : Type*} [MeasurableSpace Ω] {p : Measure Ω} {draw : Ω → Draw} {μ : Fin n → ℝ}
    {P : Matrix (Fin n) (Fin n) ℝ} (hdraw : IidDraws p μ P draw) (hnk : n + k ≠ 1) {g : Gaussian} (hg : HasMoments env g μ P)
    {func : Func} {F : (Fin n → ℝ) → Fin k → ℝ} (hf : OnRows func F) (hF : ∀ j, SquareIntegrable μ P fun x => F x j) {N : ℕ} (hN : 2 ≤ N) :
    ∃ m : Ω → Fin k → ℝ, (∀ ω, ∃ S C, mcTransform env (draw ω) N func g = .ok (.v (m ω), S, C)) ∧
      ∀ j, ∫ ω, (m ω j - expect μ P fun x => F x j) ^ 2 ∂p = (expect μ P fun x => (F x j - expect μ P fun y => F y j) ^ 2) / N ∧
        ∀ ε > 0, p {ω | ε ≤ |m ω j - expect μ P fun x => F x j|} ≤
          ENNReal.ofReal ((expect μ P fun x => (F x j - expect μ P fun y => F y j) ^ 2) / N / ε ^ 2) := by
  obtain ⟨X, hX, hind, hXd⟩ := hdraw
  have hp : IsProbabilityMeasure p := (hX 0).isProbabilityMeasure_iff.2 inferInstance
  have hm : ∀ j, Measurable fun x : EuclideanSpace ℝ (Fin n) => F x.ofLp j := fun j => (hF j).1.comp (by fun_prop)
  have hN0 : (N : ℝ) ≠ 0 := Nat.cast_ne_zero.2 (by omega)
  refine ⟨_, fun ω => ⟨_, _, mc_rows (draw ω) hN hnk hg hf⟩, fun j => ?_⟩
  set Y : ℕ → Ω → ℝ := fun l ω => F (X l ω).ofLp j with hY
  have hL : ∀ l, MemLp (Y l) 2 p := fun l => by
    have h := (hF j).2
    rw [← (hX l).map_eq] at h
    exact h.comp_of_map (hX l).aemeasurable
  have hE : ∀ l, ∫ ω, Y l ω ∂p = expect μ P fun x => F x j := fun l => integral_draw hX (hm j) l
  have hV : ∀ l, Var[Y l; p] = expect μ P fun x => (F x j - expect μ P fun y => F y j) ^ 2 := fun l => by
    rw [variance_eq_integral (hL l).aemeasurable, hE]
    exact integral_draw hX (φ := fun x => (F x.ofLp j - expect μ P fun y => F y j) ^ 2) (((hm j).sub_const _).pow_const 2) l
  have hYm : (fun ω => (∑ l : Fin N, F (draw ω N μ P l) j) / N) = fun ω => (∑ l ∈ Finset.range N, Y l ω) / N := by
    funext ω
    rw [Finset.sum_range, hXd]
    rfl
  have hM : MemLp (fun ω => (∑ l ∈ Finset.range N, Y l ω) / N) 2 p := by
    simp only [div_eq_mul_inv]
    exact (memLp_finsetSum _ fun l _ => hL l).mul_const _
  have hmean : ∫ ω, (∑ l ∈ Finset.range N, Y l ω) / N ∂p = expect μ P fun x => F x j := by
    rw [integral_div, integral_finsetSum _ fun l _ => (hL l).integrable (by norm_num)]
    simp only [hE, Finset.sum_const, Finset.card_range, nsmul_eq_mul]
    field_simp
  have hvar : Var[fun ω => (∑ l ∈ Finset.range N, Y l ω) / N; p] = (expect μ P fun x => (F x j - expect μ P fun y => F y j) ^ 2) / N := by
    have h1 : (fun ω => (∑ l ∈ Finset.range N, Y l ω) / N) = fun ω => (N : ℝ)⁻¹ * (∑ l ∈ Finset.range N, Y l) ω := by
      funext ω; rw [Finset.sum_apply, div_eq_inv_mul]
    rw [h1, variance_const_mul, IndepFun.variance_sum (fun l _ => hL l) fun a _ b _ hab => (hind hab).comp (hm j) (hm j)]
    simp only [hV, Finset.sum_const, Finset.card_range, nsmul_eq_mul]
    field_simp
  constructor
  · rw [← hvar, variance_eq_integral hM.aemeasurable, hmean]
    simp only [← congrFun hYm]
  · intro ε hε
    have := meas_ge_le_variance_div_sq hM hε
    rw [hmean, hvar] at this
    simp only [← congrFun hYm] at this
    exact this

/-- Such generators exist, for every state. -/
theorem iidDraws_exists (μ : Fin n → ℝ) (P : Matrix (Fin n) (Fin n) ℝ) :
    ∃ (Ω : Type) (_ : MeasurableSpace Ω) (p : Measure Ω) (draw : Ω → Draw), IsProbabilityMeasure p ∧ IidDraws p μ P draw := by
  obtain ⟨Ω, hΩ, p, X, hm, hX, hind, hp⟩ := exists_iid ℕ (multivariateGaussian (WithLp.toLp 2 μ) P)
  classical
  refine ⟨Ω, hΩ, p, fun ω N n' _ _ => of fun i j => if h : n' = n then (X i ω).ofLp (Fin.cast h j) else 0, hp, X, hX,
    fun i j hij => hind.indepFun hij, fun ω N => ?_⟩
  simp

/-- **C69.** The Monte Carlo variance of the growth model's measurement converges to the true value `m² p / 100 + p² / 200`, which the
unscented transform of the experiments overestimates (C68). -/
theorem C69_growth_measurement {Ω : Type*} [MeasurableSpace Ω] {pr : Measure Ω} {draw : Ω → Draw} {m p : ℝ} (hp : 0 < p)
    (hdraw : IidDraws pr (v1 m) (m1 p) draw) {g : Gaussian} (hg : HasMoments env g (v1 m) (m1 p)) (t c : Option ℝ) :
    ∀ᵐ ω ∂pr, ∃ V : ℕ → ℝ, (∀ N, 2 ≤ N → ∃ y C, mcTransform env (draw ω) N (fun x => UNGM.h x t c) g = .ok (y, .m (m1 (V N)), C)) ∧
      Tendsto V atTop (𝓝 (m ^ 2 * p / 100 + p ^ 2 / 200)) := by
  have hsq : SquareIntegrable (v1 m) (m1 p) growthQ.eval := ⟨growthQ.continuous_eval.measurable, growthQ.memLp⟩
  filter_upwards [C69_monte_carlo_consistent hdraw (by norm_num) hg (growthQ_rows t c) fun _ => hsq] with ω h
  obtain ⟨y, S, C, h1, -, h2, -⟩ := h
  refine ⟨fun N => S N 0 0, fun N hN => ⟨.v (y N), .m (C N), ?_⟩, ?_⟩
  · rw [h1 N hN, m1_ext (S N)]
  · have := h2 0 0
    simp only [← sq] at this
    have e := growthQ.expect_variance (fun _ _ _ => rfl) (v1 m) (m1_posDef.2 hp).posSemidef
    rw [e] at this
    convert this using 2
    simp only [growthQ, m1_apply, v1_apply]; ring

example : ∃ (Ω : Type) (_ : MeasurableSpace Ω) (pr : Measure Ω) (draw : Ω → Draw), IsProbabilityMeasure pr ∧
    ∀ᵐ ω ∂pr, ∃ V : ℕ → ℝ, (∀ N, 2 ≤ N → ∃ y C, mcTransform calmEnv (draw ω) N (fun x => UNGM.h x none none) (sG 4 10) =
      .ok (y, .m (m1 (V N)), C)) ∧ Tendsto V atTop (𝓝 2.1) := by
  obtain ⟨Ω, hΩ, pr, draw, h1, h2⟩ := iidDraws_exists (v1 4) (m1 10)
  refine ⟨Ω, hΩ, pr, draw, h1, ?_⟩
  have := C69_growth_measurement (by norm_num) h2 (sG_moments calmEnv 4 10) none none
  rwa [show (4 : ℝ) ^ 2 * 10 / 100 + 10 ^ 2 / 200 = 2.1 by norm_num] at this

/-- The measurement of the growth model with ten thousand samples: the error of the mean is at least a tenth with probability at most
2.1 percent, and its mean square is 0.00021. -/
example : ∃ (Ω : Type) (_ : MeasurableSpace Ω) (pr : Measure Ω) (draw : Ω → Draw) (y : Ω → Fin 1 → ℝ), IsProbabilityMeasure pr ∧
    (∀ ω, ∃ S C, mcTransform calmEnv (draw ω) 10000 (fun x => UNGM.h x none none) (sG 4 10) = .ok (.v (y ω), S, C)) ∧
    ∫ ω, (y ω 0 - 1.3) ^ 2 ∂pr = 0.00021 ∧ pr {ω | 0.1 ≤ |y ω 0 - 1.3|} ≤ ENNReal.ofReal 0.021 := by
  obtain ⟨Ω, hΩ, pr, draw, h1, h2⟩ := iidDraws_exists (v1 4) (m1 10)
  have hsq : SquareIntegrable (v1 4) (m1 10) growthQ.eval := ⟨growthQ.continuous_eval.measurable, growthQ.memLp⟩
  obtain ⟨y, a, b⟩ := C69_monte_carlo_error h2 (by norm_num) (sG_moments calmEnv 4 10) (growthQ_rows none none) (fun _ => hsq)
    (N := 10000) (by norm_num)
  have e := growthQ.expect_variance (fun _ _ _ => rfl) (v1 4) (m1_posDef.2 (show (0 : ℝ) < 10 by norm_num)).posSemidef
  have e2 : (expect (v1 4) (m1 10) fun x => (growthQ.eval x - expect (v1 4) (m1 10) growthQ.eval) ^ 2) = 2.1 := by
    rw [e]
    simp only [growthQ, m1_apply, v1_apply]
    norm_num
  have e3 : expect (v1 4) (m1 10) growthQ.eval = 1.3 := by
    rw [growthQ.expect_eval (m1_posDef.2 (show (0 : ℝ) < 10 by norm_num)).posSemidef]
    simp [growthQ, Cubic.eval, Cubic.curv]
    norm_num
  obtain ⟨b1, b2⟩ := b 0
  have e4 : (expect (v1 4) (m1 10) fun x => growthQ.eval x) = 1.3 := e3
  rw [e4] at b1 b2
  rw [e3] at e2
  refine ⟨Ω, hΩ, pr, draw, y, h1, a, ?_, ?_⟩
  · rw [b1, e2]; norm_num
  · refine (b2 0.1 (by norm_num)).trans (le_of_eq ?_)
    rw [e2]; norm_num

end Verif
