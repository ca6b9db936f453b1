import Verif.Lemmas.CurvatureUT
import Verif.Model.Kalman
import Mathlib.Analysis.Calculus.MeanValue

/-!
# Error of linearised and unscented moments of functions of bounded curvature: C95

The state is described by a Gaussian with mean `μ` and covariance `C`; the true random vector `X` may have any distribution with these
moments. The transforms return approximations of the mean, the covariance and the cross-covariance of `F X`; the theorems bound how far
they are off.
-/

namespace Verif

open Matrix MeasureTheory ProbabilityTheory

variable {env : Env} {n k : ℕ} {Ω : Type*} [MeasurableSpace Ω] {p : Measure Ω} [IsProbabilityMeasure p]
  {X : Ω → Fin n → ℝ} {μ : Fin n → ℝ} {C : Matrix (Fin n) (Fin n) ℝ}
  {F : (Fin n → ℝ) → Fin k → ℝ} {F' : (Fin n → ℝ) → (Fin n → ℝ) →L[ℝ] (Fin k → ℝ)} {K : Fin k → ℝ}

/-- **C95** (Taylor transform). The mean is off by at most half the curvature times the total variance. If the distance from the mean
has a fourth moment, standard deviations are off by at most half the curvature times its root, and covariances accordingly. -/
theorem C95_taylor {jac : Jac} (hjac : CorrectJac jac) {g : Gaussian} (hg : HasMoments env g μ C) (hX : HasMeanCov p X μ C)
    {func : Func} (hf : VecFunc func F) (hF : CurvedAtMost F F' K) :
    ∃ (m : Fin k → ℝ) (S : Matrix (Fin k) (Fin k) ℝ) (T : Matrix (Fin n) (Fin k) ℝ),
      taylorTransform env jac func g = .ok ((Arr.v m).squeeze, .m S, .m T) ∧
      (∀ i, |p[fun ω => F (X ω) i] - m i| ≤ K i / 2 * C.trace) ∧
      (MemLp (distSq X μ) 2 p → (∀ i, 0 ≤ K i) → ∀ R, R = Real.sqrt (p[fun ω => distSq X μ ω ^ 2]) →
        (∀ i, |Real.sqrt Var[fun ω => F (X ω) i; p] - Real.sqrt (S i i)| ≤ K i / 2 * R) ∧
        (∀ i j, |cov[fun ω => F (X ω) i, fun ω => F (X ω) j; p] - S i j| ≤
          Real.sqrt (S i i) * (K j / 2 * R) + K i / 2 * R * Real.sqrt (S j j) + K i / 2 * R * (K j / 2 * R)) ∧
        ∀ j i, |cov[fun ω => X ω j, fun ω => F (X ω) i; p] - T j i| ≤ Real.sqrt (C j j) * (K i / 2 * R)) := by
  refine ⟨_, _, _, C17_taylor_linearises hjac hg hf (hF.deriv μ), fun i => mean_error hF hX i, fun h4 hK R hR => ?_⟩
  subst hR
  exact ⟨fun i => sd_error hF hX h4 i (hK i), fun i j => cov_error hF hX h4 hK i j, fun j i => cross_error hF hX h4 j i (hK i)⟩

/-- **C95** (unscented transform), for every `alpha`, `beta`, `kappa` with `alpha² (n + kappa) > 0`. The mean is off by at most the
curvature times the total variance; the covariances are off by the sum of two contributions: that of the distribution and that of the
sigma points, for which `alpha² (n + kappa)` times the squared total variance stands for the fourth moment. -/
theorem C95_unscented {alpha beta kappa : ℝ} {u : UT} (hu : UT.init n alpha beta kappa = .ok u) (hpos : 0 < alpha ^ 2 * (n + kappa))
    {g : Gaussian} (hg : HasMoments env g μ C) (hC : C.PosDef) (hX : HasMeanCov p X μ C)
    {func : Func} (hf : OnRows func F) (hF : CurvedAtMost F F' K) :
    ∃ (m : Fin k → ℝ) (S : Matrix (Fin k) (Fin k) ℝ) (T : Matrix (Fin n) (Fin k) ℝ),
      u.transform env func g = .ok (.v m, .m S, .m T) ∧
      (∀ i, |p[fun ω => F (X ω) i] - m i| ≤ K i * C.trace) ∧
      (MemLp (distSq X μ) 2 p → (∀ i, 0 ≤ K i) → ∀ R R' : ℝ, ∀ s : Fin k → ℝ, R = Real.sqrt (p[fun ω => distSq X μ ω ^ 2]) →
        R' = Real.sqrt (alpha ^ 2 * (n + kappa)) * C.trace → (∀ i, s i = Real.sqrt ((jacMat (F' μ) * C * (jacMat (F' μ))ᵀ) i i)) →
        (∀ i j, |cov[fun ω => F (X ω) i, fun ω => F (X ω) j; p] - S i j| ≤
          (s i * (K j / 2 * R) + K i / 2 * R * s j + K i / 2 * R * (K j / 2 * R)) +
          (s i * (K j / 2 * R') + K i / 2 * R' * s j + K i / 2 * R' * (K j / 2 * R') +
            |beta - alpha ^ 2| * (K i / 2 * C.trace * (K j / 2 * C.trace)))) ∧
        ∀ j i, |cov[fun ω => X ω j, fun ω => F (X ω) i; p] - T j i| ≤
          Real.sqrt (C j j) * (K i / 2 * R) + Real.sqrt (C j j) * (K i / 2 * R')) := by
  obtain ⟨Y, σ, hσ, hY, h⟩ := ut_rows hu hpos hg hC hf
  have hc : 0 < alpha * alpha * (n + kappa) := by rwa [← sq]
  have hL := (cholU_spec hC).mul_eq
  have hw : 0 ≤ sigmaW n alpha kappa := by unfold sigmaW; positivity
  have hm : ∀ i, (UT.meanWeights n alpha kappa ᵥ* Y) i = F μ i +
      ∑ a, sigmaW n alpha kappa * sigmaRem F F' μ (cholU hC) (Real.sqrt (alpha * alpha * (n + kappa))) a i := fun i => by
    rw [← ut_mean_rem F F' μ (cholU hC) hc, vecMul, dotProduct]
    simp only [hY, hσ, of_apply]
  have hrho : ∀ i, |(UT.meanWeights n alpha kappa ᵥ* Y) i - F μ i| ≤ K i / 2 * C.trace := fun i => by
    rw [hm, add_sub_cancel_left]
    exact rem_sum_le hF hc hL i
  refine ⟨_, _, _, h, fun i => ?_, fun h4 hK R R' s hR hR' hs => ?_⟩
  · have h1 := abs_le.1 (mean_error hF hX i)
    have h2 := abs_le.1 (hrho i)
    exact abs_le.2 ⟨by linarith, by linarith⟩
  have htr : 0 ≤ C.trace := hC.posSemidef.trace_nonneg
  rw [sq] at hR' ⊢
  have hsq : ∀ i, Real.sqrt (∑ a, sigmaW n alpha kappa * sigmaRem F F' μ (cholU hC) (Real.sqrt (alpha * alpha * (n + kappa))) a i ^ 2) ≤
      K i / 2 * R' := fun i => hR' ▸ rem_sq_le hF hc hL i (hK i) htr
  have hR0 : ∀ i, 0 ≤ K i / 2 * R' := fun i => (Real.sqrt_nonneg _).trans (hsq i)
  have hlin : ∀ i, Real.sqrt (∑ a, sigmaW n alpha kappa *
      F' μ (sigmaDisp (cholU hC) (Real.sqrt (alpha * alpha * (n + kappa))) a) i ^ 2) = s i := fun i => by
    rw [hs, ← disp_lin F' μ (cholU hC) hc hL i i]
    simp only [sq]
  refine ⟨fun i j => ?_, fun j i => ?_⟩
  · have ht := cov_error hF hX h4 hK i j
    rw [← hs, ← hs, ← hR] at ht
    have hS : (of fun i j => ∑ l, UT.covWeights n alpha beta kappa l * (Y l i - (UT.meanWeights n alpha kappa ᵥ* Y) i) *
          (Y l j - (UT.meanWeights n alpha kappa ᵥ* Y) j)) i j = _ :=
      Eq.trans (by simp only [of_apply, hY, hσ, mul_assoc])
        (ut_cov_rem F F' beta μ (cholU hC) hc hL i j (UT.meanWeights n alpha kappa ᵥ* Y) hm)
    rw [hS]
    have c1 := (abs_wsum_le Finset.univ hw (fun a => F' μ (sigmaDisp (cholU hC) (Real.sqrt (alpha * alpha * (n + kappa))) a) i)
      fun a => sigmaRem F F' μ (cholU hC) (Real.sqrt (alpha * alpha * (n + kappa))) a j)
    have c2 := (abs_wsum_le Finset.univ hw (fun a => sigmaRem F F' μ (cholU hC) (Real.sqrt (alpha * alpha * (n + kappa))) a i)
      fun a => F' μ (sigmaDisp (cholU hC) (Real.sqrt (alpha * alpha * (n + kappa))) a) j)
    have c3 := (abs_wsum_le Finset.univ hw (fun a => sigmaRem F F' μ (cholU hC) (Real.sqrt (alpha * alpha * (n + kappa))) a i)
      fun a => sigmaRem F F' μ (cholU hC) (Real.sqrt (alpha * alpha * (n + kappa))) a j)
    rw [hlin] at c1 c2
    have hs0 : ∀ i, 0 ≤ s i := fun i => by rw [hs]; exact Real.sqrt_nonneg _
    have d1 := c1.trans (mul_le_mul_of_nonneg_left (hsq j) (hs0 i))
    have d2 := c2.trans (mul_le_mul_of_nonneg_right (hsq i) (hs0 j))
    have d3 := c3.trans (mul_le_mul (hsq i) (hsq j) (Real.sqrt_nonneg _) (hR0 i))
    have d4 : |(beta - alpha * alpha) * (((UT.meanWeights n alpha kappa ᵥ* Y) i - F μ i) * ((UT.meanWeights n alpha kappa ᵥ* Y) j - F μ j))| ≤
        |beta - alpha * alpha| * (K i / 2 * C.trace * (K j / 2 * C.trace)) := by
      rw [abs_mul, abs_mul]
      exact mul_le_mul_of_nonneg_left (mul_le_mul (hrho i) (hrho j) (abs_nonneg _) ((abs_nonneg _).trans (hrho i))) (abs_nonneg _)
    have d := abs_le.1 ht
    have d1 := abs_le.1 d1
    have d2 := abs_le.1 d2
    have d3 := abs_le.1 d3
    have d4 := abs_le.1 d4
    exact abs_le.2 ⟨by linarith, by linarith⟩
  · have ht := cross_error hF hX h4 j i (hK i)
    rw [← hR] at ht
    have hT : (of fun i j => ∑ l, UT.covWeights n alpha beta kappa l * (σ l i - μ i) *
          (Y l j - (UT.meanWeights n alpha kappa ᵥ* Y) j)) j i = _ :=
      Eq.trans (by simp only [of_apply, hY, hσ, mul_assoc])
        (ut_cross_rem F F' beta μ (cholU hC) hc hL j i ((UT.meanWeights n alpha kappa ᵥ* Y) i))
    rw [hT]
    have c1 := (abs_wsum_le Finset.univ hw (fun a => sigmaDisp (cholU hC) (Real.sqrt (alpha * alpha * (n + kappa))) a j)
      fun a => sigmaRem F F' μ (cholU hC) (Real.sqrt (alpha * alpha * (n + kappa))) a i)
    have e : ∑ a, sigmaW n alpha kappa * sigmaDisp (cholU hC) (Real.sqrt (alpha * alpha * (n + kappa))) a j ^ 2 = C j j := by
      rw [← disp_second hc hL (w := sigmaW n alpha kappa) rfl j j]
      simp only [sq]
    rw [e] at c1
    have d := abs_le.1 ht
    have d1 := abs_le.1 (c1.trans (mul_le_mul_of_nonneg_left (hsq i) (Real.sqrt_nonneg _)))
    exact abs_le.2 ⟨by linarith, by linarith⟩

/-! ### Predictions of the filter -/

/-- What `predict` does with what the transform returns. -/
theorem predict_of {ks : KFS} {prior : Gaussian} {t u : Option ℝ} {a T : Arr} {S Q : Matrix (Fin n) (Fin n) ℝ}
    (h : ks.transform (fun x => ks.transition x t u) prior = .ok (a, .m S, T)) (hQ : ks.Q = .m Q) :
    ks.predict prior t u = .ok (Gaussian.ofMoment a (.m (S + Q))) := by
  simp [KFS.predict, h, hQ]

/-- Noise that is independent of the state adds its own moments. -/
theorem next_moments {W : Ω → Fin n → ℝ} {Q : Matrix (Fin n) (Fin n) ℝ} {G : (Fin n → ℝ) → Fin n → ℝ} (hG : Continuous G)
    (hW : HasMeanCov p W 0 Q) (hi : IndepFun X W p) :
    (∀ i, Integrable (fun ω => G (X ω) i) p → p[fun ω => G (X ω) i + W ω i] = p[fun ω => G (X ω) i]) ∧
    ∀ i j, MemLp (fun ω => G (X ω) i) 2 p → MemLp (fun ω => G (X ω) j) 2 p →
      cov[fun ω => G (X ω) i + W ω i, fun ω => G (X ω) j + W ω j; p] = cov[fun ω => G (X ω) i, fun ω => G (X ω) j; p] + Q i j := by
  refine ⟨fun i h => ?_, fun i j h h' => ?_⟩
  · rw [integral_add h ((hW.sq i).integrable (by norm_num)), hW.mean, Pi.zero_apply, add_zero]
  · have hind : ∀ i j, (fun ω => G (X ω) i) ⟂ᵢ[p] (fun ω => W ω j) := fun i j =>
      hi.comp (φ := fun x => G x i) (ψ := fun x : Fin n → ℝ => (x j : ℝ)) (((continuous_apply i).comp hG).measurable)
        (by fun_prop)
    have e := covariance_add_left h (hW.sq i) (h'.add (hW.sq j))
    rw [covariance_add_right h h' (hW.sq j), covariance_add_right (hW.sq i) h' (hW.sq j), (hind i j).covariance_eq_zero h (hW.sq j),
      covariance_comm (fun ω => W ω i), (hind j i).covariance_eq_zero h' (hW.sq i), hW.cov] at e
    refine e.trans ?_
    ring

/-- **C95** (prediction of the extended Kalman filter). The state after the step is `F X + W` with noise `W` independent of `X` of mean
zero and covariance `Q`. The predicted mean is off by at most half the curvature times the total variance of the state; the predicted
covariance is off by no more than that of `F X`. -/
theorem C95_predict_extended {jac : Jac} (hjac : CorrectJac jac) {ks : KFS} (hks : ks.transform = taylorTransform env jac)
    {Q : Matrix (Fin n) (Fin n) ℝ} (hQ : ks.Q = .m Q) {t u : Option ℝ} {G : (Fin n → ℝ) → Fin n → ℝ}
    {G' : (Fin n → ℝ) → (Fin n → ℝ) →L[ℝ] (Fin n → ℝ)} {K : Fin n → ℝ} (hf : VecFunc (fun x => ks.transition x t u) G)
    (hG : CurvedAtMost G G' K) {prior : Gaussian} (hg : HasMoments env prior μ C) (hX : HasMeanCov p X μ C)
    {W : Ω → Fin n → ℝ} (hW : HasMeanCov p W 0 Q) (hi : IndepFun X W p) :
    ∃ (m : Fin n → ℝ) (S : Matrix (Fin n) (Fin n) ℝ),
      ks.predict prior t u = .ok (Gaussian.ofMoment (Arr.v m).squeeze (.m (S + Q))) ∧
      (∀ i, |p[fun ω => G (X ω) i + W ω i] - m i| ≤ K i / 2 * C.trace) ∧
      (MemLp (distSq X μ) 2 p → (∀ i, 0 ≤ K i) → ∀ R, R = Real.sqrt (p[fun ω => distSq X μ ω ^ 2]) →
        ∀ i j, |cov[fun ω => G (X ω) i + W ω i, fun ω => G (X ω) j + W ω j; p] - (S + Q) i j| ≤
          Real.sqrt (S i i) * (K j / 2 * R) + K i / 2 * R * Real.sqrt (S j j) + K i / 2 * R * (K j / 2 * R)) := by
  obtain ⟨m, S, T, h, h1, h2⟩ := C95_taylor (env := env) hjac hg hX hf hG
  obtain ⟨n1, n2⟩ := next_moments (X := X) hG.continuous hW hi
  refine ⟨m, S, predict_of (hks ▸ h) hQ, fun i => ?_, fun h4 hK R hR i j => ?_⟩
  · rw [n1 i (value_integrable hG hX i)]
    exact h1 i
  · rw [n2 i j (value_memLp hG hX h4 i) (value_memLp hG hX h4 j), Matrix.add_apply, add_sub_add_right_eq_sub]
    exact (h2 h4 hK R hR).2.1 i j

/-- **C95** (prediction of the unscented Kalman filter). -/
theorem C95_predict_unscented {alpha beta kappa : ℝ} {ut : UT} (hu : UT.init n alpha beta kappa = .ok ut)
    (hpos : 0 < alpha ^ 2 * (n + kappa)) {ks : KFS} (hks : ks.transform = ut.transform env)
    {Q : Matrix (Fin n) (Fin n) ℝ} (hQ : ks.Q = .m Q) {t u : Option ℝ} {G : (Fin n → ℝ) → Fin n → ℝ}
    {G' : (Fin n → ℝ) → (Fin n → ℝ) →L[ℝ] (Fin n → ℝ)} {K : Fin n → ℝ} (hf : OnRows (fun x => ks.transition x t u) G)
    (hG : CurvedAtMost G G' K) {prior : Gaussian} (hg : HasMoments env prior μ C) (hC : C.PosDef) (hX : HasMeanCov p X μ C)
    {W : Ω → Fin n → ℝ} (hW : HasMeanCov p W 0 Q) (hi : IndepFun X W p) :
    ∃ (m : Fin n → ℝ) (S : Matrix (Fin n) (Fin n) ℝ),
      ks.predict prior t u = .ok (Gaussian.ofMoment (.v m) (.m (S + Q))) ∧
      (∀ i, |p[fun ω => G (X ω) i + W ω i] - m i| ≤ K i * C.trace) ∧
      (MemLp (distSq X μ) 2 p → (∀ i, 0 ≤ K i) → ∀ R R' : ℝ, ∀ s : Fin n → ℝ, R = Real.sqrt (p[fun ω => distSq X μ ω ^ 2]) →
        R' = Real.sqrt (alpha ^ 2 * (n + kappa)) * C.trace → (∀ i, s i = Real.sqrt ((jacMat (G' μ) * C * (jacMat (G' μ))ᵀ) i i)) →
        ∀ i j, |cov[fun ω => G (X ω) i + W ω i, fun ω => G (X ω) j + W ω j; p] - (S + Q) i j| ≤
          (s i * (K j / 2 * R) + K i / 2 * R * s j + K i / 2 * R * (K j / 2 * R)) +
          (s i * (K j / 2 * R') + K i / 2 * R' * s j + K i / 2 * R' * (K j / 2 * R') +
            |beta - alpha ^ 2| * (K i / 2 * C.trace * (K j / 2 * C.trace)))) := by
  obtain ⟨m, S, T, h, h1, h2⟩ := C95_unscented (env := env) hu hpos hg hC hX hf hG
  obtain ⟨n1, n2⟩ := next_moments (X := X) hG.continuous hW hi
  refine ⟨m, S, predict_of (hks ▸ h) hQ, fun i => ?_, fun h4 hK R R' s hR hR' hs i j => ?_⟩
  · rw [n1 i (value_integrable hG hX i)]
    exact h1 i
  · rw [n2 i j (value_memLp hG hX h4 i) (value_memLp hG hX h4 j), Matrix.add_apply, add_sub_add_right_eq_sub]
    exact (h2 h4 hK R R' s hR hR' hs).1 i j

/-! ### Normal distributions -/

/-- The normal distribution has the moments in its name. -/
theorem normal_hasMeanCov (hC : C.PosSemidef) :
    HasMeanCov (multivariateGaussian (WithLp.toLp 2 μ) C) (fun x => x.ofLp) μ C where
  sq j := memLp_c1 j
  mean j := expect_coord j
  cov i j := covariance_eval_multivariateGaussian hC i j

theorem normal_central_sq (j : Fin n) :
    MemLp (fun x : EuclideanSpace ℝ (Fin n) => (x.ofLp j - μ j) ^ 2) 2 (multivariateGaussian (WithLp.toLp 2 μ) C) := by
  have h := ((memLp_c2 (μ := μ) (P := C) j j).sub ((memLp_c1 (μ := μ) (P := C) j).const_mul (2 * μ j))).add (memLp_const (μ j ^ 2))
  refine h.ae_eq (Filter.Eventually.of_forall fun x => ?_)
  simp only [Pi.add_apply, Pi.sub_apply]
  ring

theorem normal_distSq_memLp :
    MemLp (distSq (fun x : EuclideanSpace ℝ (Fin n) => x.ofLp) μ) 2 (multivariateGaussian (WithLp.toLp 2 μ) C) :=
  memLp_finsetSum _ fun j _ => normal_central_sq j

/-- The fourth moment of the distance from the mean of a normal distribution. -/
theorem normal_distSq_le (hC : C.PosSemidef) :
    Real.sqrt ((multivariateGaussian (WithLp.toLp 2 μ) C)[fun x => distSq (fun x => x.ofLp) μ x ^ 2]) ≤ Real.sqrt 3 * C.trace := by
  set ν := multivariateGaussian (WithLp.toLp 2 μ) C
  have h2 : ∀ i j, ∫ x, (x.ofLp i - μ i) ^ 2 * (x.ofLp j - μ j) ^ 2 ∂ν ≤ 3 * (C i i * C j j) := fun i j => by
    set a : EuclideanSpace ℝ (Fin n) → ℝ := fun x => (x.ofLp i - μ i) ^ 2
    set b : EuclideanSpace ℝ (Fin n) → ℝ := fun x => (x.ofLp j - μ j) ^ 2
    have ha : MemLp a 2 ν := normal_central_sq i
    have hb : MemLp b 2 ν := normal_central_sq j
    have ea : ∫ x, a x ^ 2 ∂ν = 3 * C i i ^ 2 := by
      rw [← expect_central4 (μ := μ) hC i]; unfold expect; congr 1; funext x; ring
    have eb : ∫ x, b x ^ 2 ∂ν = 3 * C j j ^ 2 := by
      rw [← expect_central4 (μ := μ) hC j]; unfold expect; congr 1; funext x; ring
    have hab : Integrable (fun x => a x * b x) ν := ha.integrable_mul hb
    have key : ∀ t : ℝ, 0 ≤ (∫ x, b x ^ 2 ∂ν) * (t * t) + (-2 * ∫ x, a x * b x ∂ν) * t + ∫ x, a x ^ 2 ∂ν := fun t => by
      have h0 : 0 ≤ ∫ x, (a x - t * b x) ^ 2 ∂ν := integral_nonneg fun x => sq_nonneg _
      have e : (fun x => (a x - t * b x) ^ 2) = fun x => (t * t) * b x ^ 2 + (-2 * t) * (a x * b x) + a x ^ 2 := by
        funext x; ring
      have i1 := integral_add (((hb.integrable_sq).const_mul (t * t)).add (hab.const_mul (-2 * t))) ha.integrable_sq
      have i2 := integral_add ((hb.integrable_sq).const_mul (t * t)) (hab.const_mul (-2 * t))
      simp only [Pi.add_apply] at i1
      rw [e, i1, i2, integral_const_mul, integral_const_mul] at h0
      linarith
    have hd := discrim_le_zero key
    rw [discrim, ea, eb] at hd
    have hpos : 0 ≤ 3 * (C i i * C j j) := mul_nonneg (by norm_num) (mul_nonneg hC.diag_nonneg hC.diag_nonneg)
    refine (abs_le_of_sq_le_sq' ?_ hpos).2
    show (∫ x, a x * b x ∂ν) ^ 2 ≤ _
    nlinarith
  have htr : 0 ≤ C.trace := hC.trace_nonneg
  rw [Real.sqrt_le_left (mul_nonneg (Real.sqrt_nonneg _) htr), mul_pow, Real.sq_sqrt (by norm_num)]
  have e : (fun x : EuclideanSpace ℝ (Fin n) => distSq (fun x => x.ofLp) μ x ^ 2) =
      fun x => ∑ i, ∑ j, (x.ofLp i - μ i) ^ 2 * (x.ofLp j - μ j) ^ 2 := by
    funext x
    rw [distSq, sq, Finset.sum_mul_sum]
  have hint : ∀ i j, Integrable (fun x : EuclideanSpace ℝ (Fin n) => (x.ofLp i - μ i) ^ 2 * (x.ofLp j - μ j) ^ 2) ν :=
    fun i j => (normal_central_sq i).integrable_mul (normal_central_sq j)
  rw [e, integral_finsetSum _ fun i _ => integrable_finsetSum _ fun j _ => hint i j]
  simp only [integral_finsetSum _ fun j _ => hint _ j]
  have : 3 * C.trace ^ 2 = ∑ i, ∑ j, 3 * (C i i * C j j) := by
    simp only [← Finset.mul_sum, trace, diag_apply, sq, Finset.sum_mul]
  rw [this]
  exact Finset.sum_le_sum fun i _ => Finset.sum_le_sum fun j _ => h2 i j

/-- **C95** (normal states). Against the exact expectations under the Gaussian itself: the Taylor transform is off by at most half the
curvature times the total variance in the mean, and `√3` times that in the standard deviation; the unscented mean by twice it. -/
theorem C95_normal {jac : Jac} (hjac : CorrectJac jac) {g : Gaussian} (hg : HasMoments env g μ C) (hC : C.PosSemidef)
    {func : Func} (hf : VecFunc func F) (hF : CurvedAtMost F F' K) (hK : ∀ i, 0 ≤ K i) :
    (∃ (m : Fin k → ℝ) (S : Matrix (Fin k) (Fin k) ℝ) (T : Matrix (Fin n) (Fin k) ℝ),
      taylorTransform env jac func g = .ok ((Arr.v m).squeeze, .m S, .m T) ∧
      ∀ i, |expect μ C (fun x => F x i) - m i| ≤ K i / 2 * C.trace ∧
        |Real.sqrt (expect μ C fun x => (F x i - expect μ C fun x => F x i) ^ 2) - Real.sqrt (S i i)| ≤
          K i / 2 * (Real.sqrt 3 * C.trace)) ∧
    ∀ {alpha beta kappa : ℝ} {u : UT}, UT.init n alpha beta kappa = .ok u → 0 < alpha ^ 2 * (n + kappa) → C.PosDef → OnRows func F →
      ∃ (m : Fin k → ℝ) (S T : Arr), u.transform env func g = .ok (.v m, S, T) ∧
        ∀ i, |expect μ C (fun x => F x i) - m i| ≤ K i * C.trace := by
  have hX := normal_hasMeanCov (μ := μ) hC
  refine ⟨?_, fun hu hpos hC' hr => ?_⟩
  · obtain ⟨m, S, T, h, h1, h2⟩ := C95_taylor (env := env) hjac hg hX hf hF
    refine ⟨m, S, T, h, fun i => ⟨h1 i, ?_⟩⟩
    have hv := value_memLp hF hX normal_distSq_memLp i
    have := (h2 normal_distSq_memLp hK _ rfl).1 i
    rw [variance_eq_integral hv.aestronglyMeasurable.aemeasurable] at this
    refine this.trans (mul_le_mul_of_nonneg_left (normal_distSq_le hC) (by linarith [hK i]))
  · obtain ⟨m, S, T, h, h1, -⟩ := C95_unscented (env := env) hu hpos hg hC' hX hr hF
    exact ⟨m, _, _, h, h1⟩

/-! ### The growth model -/

/-- A function of one number, seen as a function of vectors of length one. -/
theorem curvedAtMost_scalar {f f1 f2 : ℝ → ℝ} {K : ℝ} (h1 : ∀ x, HasDerivAt f (f1 x) x) (h2 : ∀ x, HasDerivAt f1 (f2 x) x)
    (hK : ∀ x, |f2 x| ≤ K) :
    CurvedAtMost (fun (x : Fin 1 → ℝ) (_ : Fin 1) => f (x 0))
      (fun x => ContinuousLinearMap.pi fun _ => f1 (x 0) • ContinuousLinearMap.proj 0) fun _ => K where
  deriv x := hasFDerivAt_pi.2 fun _ => by
    have := (h1 (x 0)).hasFDerivAt.comp x (ContinuousLinearMap.proj (R := ℝ) (φ := fun _ : Fin 1 => ℝ) 0).hasFDerivAt
    refine this.congr_fderiv ?_
    ext y
    simp [mul_comm]
  slope x d i := by
    have hl := Convex.norm_image_sub_le_of_norm_hasDerivWithin_le (f := f1) (f' := f2) (s := Set.univ) (C := K)
      (fun y _ => (h2 y).hasDerivWithinAt) (fun y _ => by simpa using hK y) convex_univ (Set.mem_univ (x 0)) (Set.mem_univ (x 0 + d 0))
    simp only [Real.norm_eq_abs, add_sub_cancel_left] at hl
    simp only [ContinuousLinearMap.coe_pi', FunLike.coe_smul, ContinuousLinearMap.proj_apply, Pi.smul_apply, smul_eq_mul,
      Pi.add_apply, Finset.univ_unique, Fin.default_eq_zero, Finset.sum_singleton]
    rw [← sub_mul, abs_mul, ← sq_abs, sq, ← mul_assoc]
    exact mul_le_mul_of_nonneg_right hl (abs_nonneg _)

/-- The measurement of the growth model bends by a tenth. -/
theorem growth_h_curved : CurvedAtMost (fun (x : Fin 1 → ℝ) (_ : Fin 1) => x 0 ^ 2 / 20)
    (fun x => ContinuousLinearMap.pi fun _ => (x 0 / 10) • ContinuousLinearMap.proj 0) fun _ => 1 / 10 :=
  curvedAtMost_scalar (f := fun a => a ^ 2 / 20) (f1 := fun a => a / 10) (f2 := fun _ => 1 / 10)
    (fun x => ((hasDerivAt_pow 2 x).div_const 20).congr_deriv (by push_cast; ring))
    (fun x => (hasDerivAt_id x).div_const 10) (fun x => by norm_num)

/-- The transition of the growth model bends by at most fifty. -/
theorem growth_f_curved (t : ℝ) : CurvedAtMost
    (fun (x : Fin 1 → ℝ) (_ : Fin 1) => 0.5 * x 0 + 25 * x 0 / (1 + x 0 ^ 2) + 8 * Real.cos (1.2 * t))
    (fun x => ContinuousLinearMap.pi fun _ => (0.5 + 25 * (1 - x 0 ^ 2) / (1 + x 0 ^ 2) ^ 2) • ContinuousLinearMap.proj 0) fun _ => 50 := by
  have hpos : ∀ x : ℝ, 1 + x ^ 2 ≠ 0 := fun x => by positivity
  refine curvedAtMost_scalar (f := fun a => 0.5 * a + 25 * a / (1 + a ^ 2) + 8 * Real.cos (1.2 * t))
    (f1 := fun a => 0.5 + 25 * (1 - a ^ 2) / (1 + a ^ 2) ^ 2) (f2 := fun a => 25 * (2 * a ^ 3 - 6 * a) / (1 + a ^ 2) ^ 3)
    (fun x => ?_) (fun x => ?_) (fun x => ?_)
  · have h := ((((hasDerivAt_id x).const_mul (0.5 : ℝ)).add (((hasDerivAt_id x).const_mul (25 : ℝ)).div
      ((hasDerivAt_pow 2 x).const_add 1) (hpos x))).add_const (8 * Real.cos (1.2 * t)))
    refine HasDerivAt.congr_deriv h ?_
    have := hpos x
    simp only [id]
    field_simp
    push_cast
    ring
  · have h := ((((hasDerivAt_pow 2 x).const_sub 1).const_mul (25 : ℝ)).div (((hasDerivAt_pow 2 x).const_add 1).pow 2)
      (pow_ne_zero 2 (hpos x))).const_add (0.5 : ℝ)
    refine HasDerivAt.congr_deriv h ?_
    have := hpos x
    simp only [Pi.pow_apply]
    field_simp
    push_cast
    ring
  · rw [abs_div, abs_of_pos (by positivity : 0 < (1 + x ^ 2) ^ 3), div_le_iff₀ (by positivity), abs_le]
    constructor
    · nlinarith [sq_nonneg (x - 1), sq_nonneg (x + 1), sq_nonneg (x ^ 2 - 1), sq_nonneg (x ^ 2), sq_nonneg (x ^ 3), sq_nonneg x,
        mul_nonneg (sq_nonneg x) (sq_nonneg (x - 1)), mul_nonneg (sq_nonneg x) (sq_nonneg (x + 1))]
    · nlinarith [sq_nonneg (x - 1), sq_nonneg (x + 1), sq_nonneg (x ^ 2 - 1), sq_nonneg (x ^ 2), sq_nonneg (x ^ 3), sq_nonneg x,
        mul_nonneg (sq_nonneg x) (sq_nonneg (x - 1)), mul_nonneg (sq_nonneg x) (sq_nonneg (x + 1))]

/-- **C95** (growth model). One step of the extended Kalman filter of the growth model from a state of mean `m` and variance `v`: the
predicted mean is off by at most `25 v`, the predicted measurement of the state by at most `v / 20`. -/
theorem C95_growth {jac : Jac} (hjac : CorrectJac jac) {sys : Sys} (hs : UNGM.init = .ok sys) {m v : ℝ} {g : Gaussian}
    (hg : HasMoments env g (v1 m) (m1 v)) {X W : Ω → Fin 1 → ℝ} (hX : HasMeanCov p X (v1 m) (m1 v)) (hW : HasMeanCov p W 0 1)
    (hi : IndepFun X W p) (t : ℝ) :
    (∃ (a : ℝ) (S : Matrix (Fin 1) (Fin 1) ℝ), (KFS.init (taylorTransform env jac) sys none).predict g (some t) none = .ok (Gaussian.ofMoment (.s a) (.m S)) ∧
      |p[fun ω => 0.5 * X ω 0 + 25 * X ω 0 / (1 + X ω 0 ^ 2) + 8 * Real.cos (1.2 * t) + W ω 0] - a| ≤ 25 * v) ∧
    ∃ (b : ℝ) (S T : Matrix (Fin 1) (Fin 1) ℝ), taylorTransform env jac (fun x => UNGM.h x (some t) none) g = .ok (.s b, .m S, .m T) ∧
      |p[fun ω => X ω 0 ^ 2 / 20] - b| ≤ v / 20 := by
  have hsys : sys.transition = UNGM.f ∧ sys.Q = .m (1 : Matrix (Fin 1) (Fin 1) ℝ) := by
    simp only [UNGM.init, Sys.make, GaussianNoise.init, and_self, if_true, Except.ok.injEq] at hs
    rw [← hs]
    simp [Arr.eye]
  have hQ : (KFS.init (taylorTransform env jac) sys none).Q = .m (1 : Matrix (Fin 1) (Fin 1) ℝ) := hsys.2
  have hf : VecFunc (fun x => (KFS.init (taylorTransform env jac) sys none).transition x (some t) none)
      (fun (x : Fin 1 → ℝ) (_ : Fin 1) => 0.5 * x 0 + 25 * x 0 / (1 + x 0 ^ 2) + 8 * Real.cos (1.2 * t)) := fun x => by
    simp only [KFS.init, hsys.1, UNGM.f, Arr.map]
    congr 2
    funext i
    rw [Subsingleton.elim i 0]
  have hh : VecFunc (fun x => UNGM.h x (some t) none) (fun (x : Fin 1 → ℝ) (_ : Fin 1) => x 0 ^ 2 / 20) := fun x => by
    simp only [UNGM.h, Arr.map]
    congr 2
    funext i
    rw [Subsingleton.elim i 0]
  have htr := m1_trace v
  refine ⟨?_, ?_⟩
  · obtain ⟨a, S, h, h1, -⟩ := C95_predict_extended (env := env) hjac rfl hQ hf (growth_f_curved t) hg hX hW hi
    have := h1 0
    rw [htr] at this
    exact ⟨a 0, _, h, by linarith⟩
  · obtain ⟨a, S, T, h, h1, -⟩ := C95_taylor (env := env) hjac hg hX hh growth_h_curved
    have := h1 0
    rw [htr] at this
    exact ⟨a 0, _, _, h, by linarith⟩

/-! ### Instances -/

/-- The normal distribution with mean 3 and variance 1 / 100: the linearised mean of `x² / 20` is 9 / 20, the true one is at most
1 / 2000 away. -/
example : ∃ jac, CorrectJac jac ∧ |expect (v1 3) (m1 (1 / 100)) (fun x => x 0 ^ 2 / 20) - 9 / 20| ≤ 1 / 2000 ∧
    ∃ S T, taylorTransform calmEnv jac (fun x => UNGM.h x none none) (sG 3 (1 / 100)) = .ok (.s (9 / 20), S, T) := by
  refine ⟨exactJac, exactJac_correct, ?_⟩
  have hC : (m1 (1 / 100)).PosSemidef := (m1_posDef.2 (by norm_num)).posSemidef
  have hh : VecFunc (fun x => UNGM.h x none none) (fun (x : Fin 1 → ℝ) (_ : Fin 1) => x 0 ^ 2 / 20) := fun x => by
    simp only [UNGM.h, Arr.map]
    congr 2
    funext i
    rw [Subsingleton.elim i 0]
  obtain ⟨m, S, T, h, h1⟩ := (C95_normal exactJac_correct (sG_moments calmEnv 3 (1 / 100)) hC hh growth_h_curved
    (fun _ => by norm_num)).1
  have hm := C17_taylor_linearises exactJac_correct (sG_moments calmEnv 3 (1 / 100)) hh (growth_h_curved.deriv (v1 3))
  have e : (Arr.v m).squeeze = .s (9 / 20) := by
    have := h.symm.trans hm
    simp only [Except.ok.injEq, Prod.mk.injEq] at this
    rw [this.1]
    show Arr.s (3 ^ 2 / 20) = _
    norm_num
  have e0 : m 0 = 9 / 20 := by simpa using e
  refine ⟨?_, _, _, e ▸ h⟩
  have := (h1 0).1
  rw [e0, m1_trace] at this
  linarith

/-- A state known to lie at 2 (a distribution without spread) and noise of two values: the hypotheses on random vectors can be met by
distributions that are not normal. -/
example : ∃ (p : Measure Bool) (X W : Bool → Fin 1 → ℝ), IsProbabilityMeasure p ∧ HasMeanCov p X (v1 2) (m1 0) ∧
    HasMeanCov p W 0 1 ∧ IndepFun X W p := by
  let p : Measure Bool := (1 / 2 : ENNReal) • Measure.dirac true + (1 / 2 : ENNReal) • Measure.dirac false
  have hp : IsProbabilityMeasure p := ⟨by simp [p, ENNReal.inv_two_add_inv_two]⟩
  have hi : ∀ f : Bool → ℝ, ∫ b, f b ∂p = (f true + f false) / 2 := fun f => by
    rw [integral_add_measure (Integrable.of_finite.smul_measure (by norm_num)) (Integrable.of_finite.smul_measure (by norm_num)), integral_smul_measure, integral_smul_measure]
    simp
    ring
  refine ⟨p, fun _ => v1 2, fun b _ => if b then 1 else -1, hp, ⟨fun j => memLp_const _, fun j => by rw [hi]; ring, fun i j => ?_⟩,
    ⟨fun j => .of_bound (Measurable.of_discrete.aestronglyMeasurable) 1 (.of_forall fun b => by cases b <;> simp),
      fun j => by rw [hi]; simp, fun i j => ?_⟩, indepFun_const_left _ _⟩
  · rw [covariance_const_left]; simp
  · rw [covariance, Subsingleton.elim i 0, Subsingleton.elim j 0]
    simp only [hi]
    norm_num

end Verif
