import Verif.Props.Posterior
import Verif.Lemmas.Forget

/-!
# What the estimates of a linear Gaussian system depend on: C84
-/

namespace Verif

open Matrix StateSpace

variable {env : Env} {n k : ℕ} {K : KFS} {u : Option ℝ} {L : StateSpace n k}

theorem Describes.withPrior {t₀ : ℝ} {g g' : Gaussian} (hK : Describes env K u t₀ g L) {m' : Fin n → ℝ} {P' : Matrix (Fin n) (Fin n) ℝ}
    (hg' : HasMoments env g' m' P') : Describes env K u t₀ ((some g').getD K.initState) (L.withPrior m' P') :=
  ⟨hK.transition, hK.measurement, hK.Q, hK.R, hg'⟩

private theorem filter_at {tZero : ℝ} {g g' : Gaussian} (hL : L.Good) (hK : Describes env K u tZero g L) {m' : Fin n → ℝ}
    {P' : Matrix (Fin n) (Fin n) ℝ} (hP' : P'.PosDef) (hg' : HasMoments env g' m' P') {ys : List Arr} {y : ℕ → Fin k → ℝ}
    (hy : ∀ i a, ys[i]? = some a → IsVec a.squeeze (y i)) :
    ∃ fs, K.kalmanFilter env ys (some g') tZero u = .ok fs ∧ fs.length = ys.length ∧ ∀ i < ys.length, ∃ f, fs[i]? = some f ∧
      HasMoments env f ((L.withPrior m' P').filt y (i + 1)).1 ((L.withPrior m' P').filt y (i + 1)).2 :=
  (hK.withPrior hg').filter (hL.withPrior m' hP') hy

/-- **C84.** On a linear Gaussian system the covariances that the filter reports depend neither on the measurements nor on the prior
mean, and the means are affine in both together: a run whose prior mean and measurements are weighted means of those of two other runs
reports the weighted means of their results. -/
theorem C84_filter_superposition {tZero : ℝ} {g g' g'' : Gaussian} (hL : L.Good) (hK : Describes env K u tZero g L) {m' : Fin n → ℝ}
    (hg' : HasMoments env g' m' L.P0) (θ : ℝ) (hg'' : HasMoments env g'' (mix θ L.m0 m') L.P0) {ys ys' ys'' : List Arr} {y y' : ℕ → Fin k → ℝ}
    (hy : ∀ i a, ys[i]? = some a → IsVec a.squeeze (y i)) (hy' : ∀ i a, ys'[i]? = some a → IsVec a.squeeze (y' i))
    (hy'' : ∀ i a, ys''[i]? = some a → IsVec a.squeeze (mix θ (y i) (y' i))) (hl' : ys'.length = ys.length) (hl'' : ys''.length = ys.length) :
    ∃ fs fs' fs'', K.kalmanFilter env ys (some g) tZero u = .ok fs ∧ K.kalmanFilter env ys' (some g') tZero u = .ok fs' ∧
      K.kalmanFilter env ys'' (some g'') tZero u = .ok fs'' ∧
      ∀ i < ys.length, ∃ f f' f'', ∃ μ μ' : Fin n → ℝ, ∃ C, fs[i]? = some f ∧ fs'[i]? = some f' ∧ fs''[i]? = some f'' ∧
        HasMoments env f μ C ∧ HasMoments env f' μ' C ∧ HasMoments env f'' (mix θ μ μ') C := by
  obtain ⟨fs, h1, -, e1⟩ := filter_at hL hK hL.P0 hK.prior hy
  obtain ⟨fs', h2, -, e2⟩ := filter_at hL hK hL.P0 hg' hy'
  obtain ⟨fs'', h3, -, e3⟩ := filter_at hL hK hL.P0 hg'' hy''
  refine ⟨fs, fs', fs'', h1, h2, h3, fun i hi => ?_⟩
  obtain ⟨f, a1, b1⟩ := e1 i hi
  obtain ⟨f', a2, b2⟩ := e2 i (hl'.symm ▸ hi)
  obtain ⟨f'', a3, b3⟩ := e3 i (hl''.symm ▸ hi)
  rw [filt_mix] at b3
  rw [filt_cov (y := y)] at b1 b2 b3
  exact ⟨f, f', f'', _, _, _, a1, a2, a3, b1, b2, b3⟩

/-- **C84.** The same for the smoother. -/
theorem C84_smoother_superposition {g g' g'' : Gaussian} (hL : L.Good) (hK : Describes env K u 0 g L) {m' : Fin n → ℝ}
    (hg' : HasMoments env g' m' L.P0) (θ : ℝ) (hg'' : HasMoments env g'' (mix θ L.m0 m') L.P0) {ys ys' ys'' : List Arr} {y y' : ℕ → Fin k → ℝ}
    (hy : ∀ i a, ys[i]? = some a → IsVec a.squeeze (y i)) (hy' : ∀ i a, ys'[i]? = some a → IsVec a.squeeze (y' i))
    (hy'' : ∀ i a, ys''[i]? = some a → IsVec a.squeeze (mix θ (y i) (y' i))) (hl' : ys'.length = ys.length) (hl'' : ys''.length = ys.length)
    (hne : ys ≠ []) :
    ∃ fs fs' fs'' rs rs' rs'', K.kalmanFilter env ys (some g) 0 u = .ok fs ∧ K.kalmanFilter env ys' (some g') 0 u = .ok fs' ∧
      K.kalmanFilter env ys'' (some g'') 0 u = .ok fs'' ∧ K.kalmanSmoother env fs u = .ok rs ∧ K.kalmanSmoother env fs' u = .ok rs' ∧
      K.kalmanSmoother env fs'' u = .ok rs'' ∧
      ∀ i < ys.length, ∃ f f' f'', ∃ μ μ' : Fin n → ℝ, ∃ C, rs[i]? = some f ∧ rs'[i]? = some f' ∧ rs''[i]? = some f'' ∧
        HasMoments env f μ C ∧ HasMoments env f' μ' C ∧ HasMoments env f'' (mix θ μ μ') C := by
  have hlen := List.length_pos_iff.2 hne
  obtain ⟨fs, rs, h1, k1, -, e1⟩ := (hK.withPrior hK.prior).smoother (hL.withPrior _ hL.P0) hy hne
  obtain ⟨fs', rs', h2, k2, -, e2⟩ := (hK.withPrior hg').smoother (hL.withPrior _ hL.P0) hy' (List.length_pos_iff.1 (by omega))
  obtain ⟨fs'', rs'', h3, k3, -, e3⟩ := (hK.withPrior hg'').smoother (hL.withPrior _ hL.P0) hy'' (List.length_pos_iff.1 (by omega))
  refine ⟨fs, fs', fs'', rs, rs', rs'', h1, h2, h3, k1, k2, k3, fun i hi => ?_⟩
  obtain ⟨f, a1, b1⟩ := e1 i hi
  obtain ⟨f', a2, b2⟩ := e2 i (hl'.symm ▸ hi)
  obtain ⟨f'', a3, b3⟩ := e3 i (hl''.symm ▸ hi)
  rw [hl'] at b2
  rw [hl'', smth_mix] at b3
  rw [smth_cov (y := y)] at b1 b2 b3
  exact ⟨f, f', f'', _, _, _, a1, a2, a3, b1, b2, b3⟩

/-- **C84.** Two runs on the same measurements from different prior means: in no direction do the two estimates ever differ by more
reported standard deviations than at any earlier time, the priors included. -/
theorem C84_prior_mean_bounded {tZero : ℝ} {g g' : Gaussian} (hL : L.Good) (hK : Describes env K u tZero g L) {m' : Fin n → ℝ}
    (hg' : HasMoments env g' m' L.P0) {ys : List Arr} {y : ℕ → Fin k → ℝ} (hy : ∀ i a, ys[i]? = some a → IsVec a.squeeze (y i)) :
    ∃ fs fs', K.kalmanFilter env ys (some g) tZero u = .ok fs ∧ K.kalmanFilter env ys (some g') tZero u = .ok fs' ∧
      ∀ i j, i ≤ j → j ≤ ys.length → ∃ f f' h h', ∃ μ μ' ν ν' : Fin n → ℝ, ∃ P C, (g :: fs)[i]? = some f ∧ (g' :: fs')[i]? = some f' ∧
        (g :: fs)[j]? = some h ∧ (g' :: fs')[j]? = some h' ∧ HasMoments env f μ P ∧ HasMoments env f' μ' P ∧ HasMoments env h ν C ∧
        HasMoments env h' ν' C ∧ ∀ D, 0 ≤ D → (∀ v, |v ⬝ᵥ (μ - μ')| ≤ D * √(v ⬝ᵥ P *ᵥ v)) → ∀ v, |v ⬝ᵥ (ν - ν')| ≤ D * √(v ⬝ᵥ C *ᵥ v) := by
  obtain ⟨fs, h1, l1, e1⟩ := filter_at hL hK hL.P0 hK.prior hy
  obtain ⟨fs', h2, l2, e2⟩ := filter_at hL hK hL.P0 hg' hy
  refine ⟨fs, fs', h1, h2, fun i j hij hj => ?_⟩
  have a1 : ∀ i ≤ ys.length, ∃ f, (g :: fs)[i]? = some f ∧ HasMoments env f ((L.withPrior L.m0 L.P0).filt y i).1 (L.filt y i).2 := fun i hi => by
    cases i with
    | zero => exact ⟨g, rfl, hK.prior⟩
    | succ i =>
      obtain ⟨f, a, b⟩ := e1 i hi
      rw [filt_cov (y := y)] at b
      exact ⟨f, a, b⟩
  have a2 : ∀ i ≤ ys.length, ∃ f, (g' :: fs')[i]? = some f ∧ HasMoments env f ((L.withPrior m' L.P0).filt y i).1 (L.filt y i).2 := fun i hi => by
    cases i with
    | zero => exact ⟨g', rfl, hg'⟩
    | succ i =>
      obtain ⟨f, a, b⟩ := e2 i hi
      rw [filt_cov (y := y)] at b
      exact ⟨f, a, b⟩
  obtain ⟨f, p1, q1⟩ := a1 i (hij.trans hj)
  obtain ⟨f', p2, q2⟩ := a2 i (hij.trans hj)
  obtain ⟨h, p3, q3⟩ := a1 j hj
  obtain ⟨h', p4, q4⟩ := a2 j hj
  exact ⟨f, f', h, h', _, _, _, _, _, _, p1, p2, p3, p4, q1, q2, q3, q4, fun D hD hi => hL.within L.m0 m' hD hi j hij⟩

variable {A : Matrix (Fin n) (Fin n) ℝ} {b : Fin n → ℝ} {H : Matrix (Fin k) (Fin n) ℝ} {c : Fin k → ℝ}

/-- **C84.** Time independent transition and measurement matrices for which some observer with constant gain has a bounded error: the
difference between the estimates from two prior means tends to zero at a geometric rate that depends on neither the means nor the
measurements. -/
theorem C84_prior_mean_forgotten {tZero : ℝ} {g g' : Gaussian} (hL : L.Good) (hK : Describes env K u tZero g L) (hA : ∀ i, L.A i = A)
    (hH : ∀ i, L.H i = H) (hdet : Detectable A L.Q H L.R) {m' : Fin n → ℝ} (hg' : HasMoments env g' m' L.P0) :
    ∃ ρ κ, 0 < ρ ∧ ρ < 1 ∧ ∀ (ys : List Arr) (y : ℕ → Fin k → ℝ), (∀ i a, ys[i]? = some a → IsVec a.squeeze (y i)) →
      ∃ fs fs', K.kalmanFilter env ys (some g) tZero u = .ok fs ∧ K.kalmanFilter env ys (some g') tZero u = .ok fs' ∧
        ∀ i < ys.length, ∃ f f', ∃ μ μ' : Fin n → ℝ, ∃ C, fs[i]? = some f ∧ fs'[i]? = some f' ∧ HasMoments env f μ C ∧ HasMoments env f' μ' C ∧
          ∀ j, |μ j - μ' j| ≤ κ * ρ ^ i := by
  obtain ⟨ρ, B, hρ, hρ1, hB, h⟩ := hL.forget_mean hA hH hdet
  obtain ⟨D, hD, hD0⟩ := exists_within hL.P0 (L.m0 - m')
  refine ⟨ρ, D * B, hρ, hρ1, fun ys y hy => ?_⟩
  obtain ⟨fs, h1, -, e1⟩ := filter_at hL hK hL.P0 hK.prior hy
  obtain ⟨fs', h2, -, e2⟩ := filter_at hL hK hL.P0 hg' hy
  refine ⟨fs, fs', h1, h2, fun i hi => ?_⟩
  obtain ⟨f, a1, b1⟩ := e1 i hi
  obtain ⟨f', a2, b2⟩ := e2 i hi
  rw [filt_cov (y := y)] at b1 b2
  refine ⟨f, f', _, _, _, a1, a2, b1, b2, fun j => ?_⟩
  have h3 := h L.m0 m' D hD hD0 y (i + 1)
  have h4 := (norm_le_pi_norm _ j).trans h3
  rw [Pi.sub_apply, Real.norm_eq_abs] at h4
  refine h4.trans ?_
  rw [pow_succ]
  have : ρ ^ i * ρ * D * B = ρ * (D * B * ρ ^ i) := by ring
  rw [this]
  exact mul_le_of_le_one_left (mul_nonneg (mul_nonneg hD hB) (pow_nonneg hρ.le i)) hρ1.le

/-- **C84.** The same for two priors with different means and covariances, when the measurements are bounded: means and covariances of
the two runs approach each other at a geometric rate. -/
theorem C84_prior_forgotten {tZero : ℝ} {g g' : Gaussian} (hL : L.Good) (hK : Describes env K u tZero g L) (hA : ∀ i, L.A i = A)
    (hb : ∀ i, L.b i = b) (hH : ∀ i, L.H i = H) (hc : ∀ i, L.c i = c) (hdet : Detectable A L.Q H L.R) {m' : Fin n → ℝ}
    {P' : Matrix (Fin n) (Fin n) ℝ} (hP' : P'.PosDef) (hg' : HasMoments env g' m' P') (Y : ℝ) :
    ∃ ρ κ, 0 < ρ ∧ ρ < 1 ∧ ∀ (ys : List Arr) (y : ℕ → Fin k → ℝ), (∀ i a, ys[i]? = some a → IsVec a.squeeze (y i)) →
      (∀ i j, |y i j| ≤ Y) →
      ∃ fs fs', K.kalmanFilter env ys (some g) tZero u = .ok fs ∧ K.kalmanFilter env ys (some g') tZero u = .ok fs' ∧
        ∀ i < ys.length, ∃ f f', ∃ μ μ' : Fin n → ℝ, ∃ C C', fs[i]? = some f ∧ fs'[i]? = some f' ∧ HasMoments env f μ C ∧ HasMoments env f' μ' C' ∧
          (∀ j, |μ j - μ' j| ≤ κ * ρ ^ i) ∧ ∀ j l, |C j l - C' j l| ≤ κ * ρ ^ i := by
  obtain ⟨ρ, κ, hρ, hρ1, h⟩ := hL.forget hA hb hH hc hdet m' hP' |Y|
  refine ⟨ρ, |κ|, hρ, hρ1, fun ys y hy hY => ?_⟩
  obtain ⟨fs, h1, -, e1⟩ := filter_at hL hK hL.P0 hK.prior hy
  obtain ⟨fs', h2, -, e2⟩ := filter_at hL hK hP' hg' hy
  refine ⟨fs, fs', h1, h2, fun i hi => ?_⟩
  obtain ⟨f, a1, b1⟩ := e1 i hi
  obtain ⟨f', a2, b2⟩ := e2 i hi
  obtain ⟨h3, h4⟩ := h y (fun i => (pi_norm_le_iff_of_nonneg (abs_nonneg Y)).2 fun j => (hY i j).trans (le_abs_self Y)) (i + 1)
  have h5 : κ * ρ ^ (i + 1) ≤ |κ| * ρ ^ i := by
    calc κ * ρ ^ (i + 1) ≤ |κ| * ρ ^ (i + 1) := mul_le_mul_of_nonneg_right (le_abs_self κ) (pow_nonneg hρ.le _)
      _ ≤ _ := mul_le_mul_of_nonneg_left (pow_le_pow_of_le_one hρ.le hρ1.le (Nat.le_succ i)) (abs_nonneg κ)
  exact ⟨f, f', _, _, _, _, a1, a2, b1, b2, fun j => (norm_le_pi_norm _ j).trans (h3.trans h5), fun j l => (h4 j l).trans h5⟩

/-- **C84.** The condition cannot be dropped: if nothing is measured, `H = 0`, the difference of the estimates is the difference of the
prior means propagated by the transition matrix. -/
theorem C84_unobserved {tZero : ℝ} {g g' : Gaussian} (hL : L.Good) (hK : Describes env K u tZero g L) (hA : ∀ i, L.A i = A)
    (hH : ∀ i, L.H i = 0) {m' : Fin n → ℝ} (hg' : HasMoments env g' m' L.P0) {ys : List Arr} {y : ℕ → Fin k → ℝ}
    (hy : ∀ i a, ys[i]? = some a → IsVec a.squeeze (y i)) :
    ∃ fs fs', K.kalmanFilter env ys (some g) tZero u = .ok fs ∧ K.kalmanFilter env ys (some g') tZero u = .ok fs' ∧
      ∀ i < ys.length, ∃ f f', ∃ μ μ' : Fin n → ℝ, ∃ C, fs[i]? = some f ∧ fs'[i]? = some f' ∧ HasMoments env f μ C ∧ HasMoments env f' μ' C ∧
        μ - μ' = A ^ (i + 1) *ᵥ (L.m0 - m') := by
  obtain ⟨fs, h1, -, e1⟩ := filter_at hL hK hL.P0 hK.prior hy
  obtain ⟨fs', h2, -, e2⟩ := filter_at hL hK hL.P0 hg' hy
  refine ⟨fs, fs', h1, h2, fun i hi => ?_⟩
  obtain ⟨f, a1, b1⟩ := e1 i hi
  obtain ⟨f', a2, b2⟩ := e2 i hi
  rw [filt_cov (y := y)] at b1 b2
  refine ⟨f, f', _, _, _, a1, a2, b1, b2, ?_⟩
  have step : ∀ (m : Fin n → ℝ) (i : ℕ), ((L.withPrior m L.P0).filt y (i + 1)).1 = A *ᵥ ((L.withPrior m L.P0).filt y i).1 + L.b i := fun m i => by
    rw [StateSpace.filt]
    simp [StateSpace.withPrior, condMean, gainMat, hA, hH]
  have : ∀ i, ((L.withPrior L.m0 L.P0).filt y i).1 - ((L.withPrior m' L.P0).filt y i).1 = A ^ i *ᵥ (L.m0 - m') := fun i => by
    induction i with
    | zero => rw [pow_zero, one_mulVec]; rfl
    | succ i ih => rw [step, step, add_sub_add_right_eq_sub, ← mulVec_sub, ih, mulVec_mulVec, pow_succ']
  exact this (i + 1)

/-! ## Examples -/

/-- The constant velocity model measured in its position alone. -/
theorem demoSpace_detectable : Detectable (demoSpace.A 0) demoSpace.Q (demoSpace.H 0) demoSpace.R := by
  refine ⟨!![1; 1 / 2], diagonal ![2, 4], PosDef.diagonal fun i => by fin_cases i <;> norm_num, ?_⟩
  have : ∀ G : Matrix (Fin 2) (Fin 1) ℝ, G = !![1; 1 / 2] → diagonal ![2, 4] - ((1 - G * demoSpace.H 0) *
      (demoSpace.A 0 * diagonal ![2, 4] * (demoSpace.A 0)ᵀ + demoSpace.Q) * (1 - G * demoSpace.H 0)ᵀ + G * demoSpace.R * Gᵀ) =
      !![1, -1 / 2; -1 / 2, 2] := by
    rintro _ rfl
    ext i j
    fin_cases i <;> fin_cases j <;>
      simp [demoSpace, Matrix.mul_apply, Fin.sum_univ_two, diagonal_apply, Matrix.one_apply, vecMul, dotProduct] <;> norm_num
  rw [this _ rfl]
  refine posSemidef_iff_quad.2 ⟨by ext i j; fin_cases i <;> fin_cases j <;> rfl, fun x => ?_⟩
  simp [quad, dotProduct, mulVec, Fin.sum_univ_two]
  nlinarith [sq_nonneg (x 0 - x 1 / 2), sq_nonneg (x 1)]

theorem demo_describes : Describes calmEnv (demoKFS (taylorTransform calmEnv exactJac)) none 0
    (demoKFS (taylorTransform calmEnv exactJac)).initState demoSpace :=
  ⟨fun _ => C20_taylor_exact calmEnv exactJac_correct (.inl (affineFunc_vec _ _)),
    fun _ => C20_taylor_exact calmEnv exactJac_correct (.inl (affineFunc_vec _ _)), rfl, rfl, hasMoments_ofMoment _ _ _⟩

/-- A prior far off and much too certain is forgotten. -/
example : ∃ ρ κ, 0 < ρ ∧ ρ < 1 ∧ ∀ (ys : List Arr) (y : ℕ → Fin 1 → ℝ), (∀ i a, ys[i]? = some a → IsVec a.squeeze (y i)) →
    (∀ i j, |y i j| ≤ 10) → ∃ fs fs', (demoKFS (taylorTransform calmEnv exactJac)).kalmanFilter calmEnv ys
        (some (demoKFS (taylorTransform calmEnv exactJac)).initState) 0 none = .ok fs ∧
      (demoKFS (taylorTransform calmEnv exactJac)).kalmanFilter calmEnv ys
        (some (Gaussian.ofMoment (.v ![100, -7]) (.m (diagonal ![1 / 100, 1 / 50])))) 0 none = .ok fs' ∧
      ∀ i < ys.length, ∃ f f' μ μ' C C', fs[i]? = some f ∧ fs'[i]? = some f' ∧ HasMoments calmEnv f μ C ∧ HasMoments calmEnv f' μ' C' ∧
        (∀ j : Fin 2, |μ j - μ' j| ≤ κ * ρ ^ i) ∧ ∀ j l, |C j l - C' j l| ≤ κ * ρ ^ i :=
  C84_prior_forgotten demoSpace_good demo_describes (fun _ => rfl) (fun _ => rfl) (fun _ => rfl) (fun _ => rfl) demoSpace_detectable
    (PosDef.diagonal fun i => by fin_cases i <;> norm_num) (hasMoments_ofMoment _ _ _) 10

/-- Two prior means of the same model. -/
example : ∃ fs fs', (demoKFS (taylorTransform calmEnv exactJac)).kalmanFilter calmEnv [.s 4]
        (some (demoKFS (taylorTransform calmEnv exactJac)).initState) 0 none = .ok fs ∧
      (demoKFS (taylorTransform calmEnv exactJac)).kalmanFilter calmEnv [.s 4]
        (some (Gaussian.ofMoment (.v ![3, 5]) (.m (diagonal ![2, 3])))) 0 none = .ok fs' ∧ fs ≠ [] := by
  obtain ⟨fs, fs', h1, h2, h3⟩ := C84_prior_mean_bounded demoSpace_good demo_describes (m' := ![3, 5]) (hasMoments_ofMoment _ _ _)
    (ys := [.s 4]) (y := fun _ _ => 4) (fun i a ha => by
      rcases i with _ | i
      · obtain rfl : Arr.s 4 = a := by simpa using ha
        exact .inr (by simp)
      · simp at ha)
  obtain ⟨_, _, h, _, _, _, _, _, _, _, -, -, e, -⟩ := h3 0 1 (by decide) (by decide)
  exact ⟨fs, fs', h1, h2, fun hf => by subst hf; simp at e⟩

end Verif
