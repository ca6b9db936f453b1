import Verif.Lemmas.Steady
import Verif.Props.Order
import Verif.Spec.Steady

/-!
# C87: steady state and fixed lag
-/

namespace Verif

open Matrix StateSpace

variable {n k : ℕ} {env : Env} {K : KFS} {u : Option ℝ} {t₀ : ℝ} {L : StateSpace n k} {A : Matrix (Fin n) (Fin n) ℝ} {b : Fin n → ℝ}
  {H : Matrix (Fin k) (Fin n) ℝ} {c : Fin k → ℝ} {X : Matrix (Fin n) (Fin n) ℝ}

private theorem steady_iff {Q : Matrix (Fin n) (Fin n) ℝ} {R : Matrix (Fin k) (Fin k) ℝ} (hQ : Q.PosDef) :
    Steady A Q H R X ↔ X.PosDef ∧ ric A Q H R X = X := by
  have e : ∀ hX : X.PosDef, ric A Q H R X = (A * X * Aᵀ + Q) - (A * X * Aᵀ + Q) * Hᵀ * (H * (A * X * Aᵀ + Q) * Hᵀ + R)⁻¹ * H * (A * X * Aᵀ + Q) :=
    fun hX => by
    rw [ric, condCov, transpose_mul, transpose_transpose, posDef_symm (innov_posDef hX.posSemidef hQ A)]
    simp only [Matrix.mul_assoc]
  constructor
  · rintro ⟨h1, M, rfl, h2⟩
    exact ⟨h1, (e h1).trans h2.symm⟩
  · rintro ⟨h1, h2⟩
    exact ⟨h1, _, rfl, (h2.symm.trans (e h1))⟩

/-- **C87.** Time independent transition and measurement matrices for which some observer with constant gain has a bounded error: there is
exactly one covariance that prediction and correction reproduce, and the covariances that the filter reports converge to it at a
geometric rate, from every prior and for all measurements. The offsets of transition and measurement may depend on time. -/
theorem C87_filter_steady {g : Gaussian} (hL : L.Good) (hK : Describes env K u t₀ g L) (hA : ∀ i, L.A i = A) (hH : ∀ i, L.H i = H)
    (hdet : Detectable A L.Q H L.R) :
    ∃ X, Steady A L.Q H L.R X ∧ (∀ X', Steady A L.Q H L.R X' → X' = X) ∧
      ∀ (g' : Gaussian) (m' : Fin n → ℝ) (P' : Matrix (Fin n) (Fin n) ℝ), P'.PosDef → HasMoments env g' m' P' →
        ∃ ρ κ, 0 < ρ ∧ ρ < 1 ∧ ∀ (ys : List Arr) (y : ℕ → Fin k → ℝ), (∀ i a, ys[i]? = some a → IsVec a.squeeze (y i)) →
          ∃ fs, K.kalmanFilter env ys (some g') t₀ u = .ok fs ∧ fs.length = ys.length ∧
            ∀ i < ys.length, ∃ f, ∃ μ : Fin n → ℝ, ∃ C, fs[i]? = some f ∧ HasMoments env f μ C ∧ ∀ j l, |C j l - X j l| ≤ κ * ρ ^ i := by
  obtain ⟨X, hX, hfix⟩ := exists_steady hL.Q hL.R hdet
  refine ⟨X, (steady_iff hL.Q).2 ⟨hX, hfix⟩, fun X' h' => ?_, fun g' m' P' hP' hg' => ?_⟩
  · obtain ⟨h1, h2⟩ := (steady_iff hL.Q).1 h'
    exact steady_unique hL.Q hL.R hdet h1 hX h2 hfix
  · obtain ⟨ρ, κ, h0, h1, h⟩ := ric_forget hL.Q hL.R hdet hP' hX
    refine ⟨ρ, |κ|, h0, h1, fun ys y hy => ?_⟩
    obtain ⟨fs, a1, a2, a3⟩ := (hK.withPrior hg').filter (hL.withPrior m' hP') hy
    refine ⟨fs, a1, a2, fun i hi => ?_⟩
    obtain ⟨f, a4, a5⟩ := a3 i hi
    refine ⟨f, _, _, a4, a5, fun j l => ?_⟩
    have h2 := h (i + 1) j l
    rw [Function.iterate_fixed hfix] at h2
    rw [filt_ric (L := L.withPrior m' P') hA hH]
    refine h2.trans ?_
    calc κ * ρ ^ (i + 1) ≤ |κ| * ρ ^ (i + 1) := mul_le_mul_of_nonneg_right (le_abs_self κ) (pow_nonneg h0.le _)
      _ ≤ _ := mul_le_mul_of_nonneg_left (pow_le_pow_of_le_one h0.le h1.le (Nat.le_succ i)) (abs_nonneg κ)

/-- **C87.** Started from a steady covariance, the filter reports that covariance at every step. -/
theorem C87_steady_start {g : Gaussian} (hL : L.Good) (hK : Describes env K u t₀ g L) (hA : ∀ i, L.A i = A) (hH : ∀ i, L.H i = H)
    (hX : Steady A L.Q H L.R X) {g' : Gaussian} {m' : Fin n → ℝ} (hg' : HasMoments env g' m' X) {ys : List Arr} {y : ℕ → Fin k → ℝ}
    (hy : ∀ i a, ys[i]? = some a → IsVec a.squeeze (y i)) :
    ∃ fs, K.kalmanFilter env ys (some g') t₀ u = .ok fs ∧ fs.length = ys.length ∧
      ∀ i < ys.length, ∃ f, ∃ μ : Fin n → ℝ, fs[i]? = some f ∧ HasMoments env f μ X := by
  obtain ⟨h1, h2⟩ := (steady_iff hL.Q).1 hX
  obtain ⟨fs, a1, a2, a3⟩ := (hK.withPrior hg').filter (hL.withPrior m' h1) hy
  refine ⟨fs, a1, a2, fun i hi => ?_⟩
  obtain ⟨f, a4, a5⟩ := a3 i hi
  rw [filt_ric (L := L.withPrior m' X) hA hH] at a5
  have e : (ric A (L.withPrior m' X).Q H (L.withPrior m' X).R)^[i + 1] (L.withPrior m' X).P0 = X := Function.iterate_fixed h2 _
  rw [e] at a5
  exact ⟨f, _, a4, a5⟩

/-- **C87.** Later measurements lose their influence on the smoothed estimates at a geometric rate: under the same condition on the
system, with time independent offsets and bounded measurements, the smoother run on the first measurements alone gives, for a state
followed by `d` of these measurements, the means and covariances of the run on all measurements up to `κ ρ^d`. -/
theorem C87_smoother_lag {prior : Option Gaussian} (hL : L.Good) (hK : Describes env K u 0 (prior.getD K.initState) L) (hA : ∀ i, L.A i = A)
    (hb : ∀ i, L.b i = b) (hH : ∀ i, L.H i = H) (hc : ∀ i, L.c i = c) (hdet : Detectable A L.Q H L.R) (Y : ℝ) :
    ∃ ρ κ, 0 < ρ ∧ ρ < 1 ∧ ∀ (ys zs : List Arr) (y : ℕ → Fin k → ℝ), (∀ i a, (ys ++ zs)[i]? = some a → IsVec a.squeeze (y i)) →
      (∀ i j, |y i j| ≤ Y) → ys ≠ [] →
      ∃ fs fs' rs rs', K.kalmanFilter env ys prior 0 u = .ok fs ∧ K.kalmanFilter env (ys ++ zs) prior 0 u = .ok fs' ∧
        K.kalmanSmoother env fs u = .ok rs ∧ K.kalmanSmoother env fs' u = .ok rs' ∧
        ∀ i d, i + 1 + d = ys.length → ∃ r r', ∃ μ μ' : Fin n → ℝ, ∃ C C', rs[i]? = some r ∧ rs'[i]? = some r' ∧ HasMoments env r μ C ∧
          HasMoments env r' μ' C' ∧ (∀ j, |μ j - μ' j| ≤ κ * ρ ^ d) ∧ ∀ j l, |C j l - C' j l| ≤ κ * ρ ^ d := by
  obtain ⟨ρ, κ, h0, h1, hκ, h2, h3⟩ := hL.lag hA hb hH hc hdet |Y|
  refine ⟨ρ, κ, h0, h1, fun ys zs y hy hY hne => ?_⟩
  have hy0 : ∀ i a, ys[i]? = some a → IsVec a.squeeze (y i) := fun i a ha =>
    hy i a (by rw [List.getElem?_append_left (List.getElem?_eq_some_iff.1 ha).1]; exact ha)
  obtain ⟨fs, rs, a0, a1, a2, a3⟩ := hK.smoother hL hy0 hne
  obtain ⟨fs', rs', a0', a1', a2', a3'⟩ := hK.smoother hL hy (by simp [hne])
  refine ⟨fs, fs', rs, rs', a0, a0', a1, a1', fun i d hd => ?_⟩
  have hlen : (ys ++ zs).length = ys.length + zs.length := List.length_append
  obtain ⟨r, b1, b2⟩ := a3 i (by omega)
  obtain ⟨r', b1', b2'⟩ := a3' i (by omega)
  have e1 : ys.length - (i + 1) = d := by omega
  rw [e1] at b2
  set d' := (ys ++ zs).length - (i + 1) with hd'
  have hdd : d ≤ d' := by omega
  refine ⟨r, r', _, _, _, _, b1, b1', b2, b2', fun j => ?_, fun j l => ?_⟩
  · have h4 := h3 y (fun i => (pi_norm_le_iff_of_nonneg (abs_nonneg Y)).2 fun j => (hY i j).trans (le_abs_self Y)) (i + 1) d d' hdd
    rw [abs_sub_comm]
    exact (norm_le_pi_norm _ j).trans h4
  · rw [L.smth_cov' y 0, L.smth_cov' y 0]
    have hs : ((L.smth 0 (i + 1) d).2 - (L.smth 0 (i + 1) d').2).PosSemidef := posSemidef_iff_quad.2
      ⟨by rw [transpose_sub, posDef_symm (hL.smth d (i + 1)), posDef_symm (hL.smth d' (i + 1))], fun v => by
        have := hL.longer (i + 1) hdd v
        rw [quad, sub_mulVec, dotProduct_sub]
        linarith⟩
    have hq : ∀ j, quad ((L.smth 0 (i + 1) d).2 - (L.smth 0 (i + 1) d').2) (Pi.single j 1) ≤ κ * ρ ^ d := fun j => by
      have := h2 (i + 1) d d' hdd (Pi.single j 1)
      rw [single_dotProduct, one_mul, Pi.single_eq_same, mul_one] at this
      rwa [quad, sub_mulVec, dotProduct_sub]
    have h4 := abs_le_quad hs (Pi.single j 1) (Pi.single l 1)
    rw [single_dotProduct, one_mul, mulVec_single_one] at h4
    refine (show |(L.smth 0 (i + 1) d).2 j l - (L.smth 0 (i + 1) d').2 j l| ≤ _ from h4).trans ?_
    calc _ ≤ √(κ * ρ ^ d) * √(κ * ρ ^ d) :=
          mul_le_mul (Real.sqrt_le_sqrt (hq j)) (Real.sqrt_le_sqrt (hq l)) (Real.sqrt_nonneg _) (Real.sqrt_nonneg _)
      _ = _ := Real.mul_self_sqrt (mul_nonneg hκ (pow_nonneg h0.le d))

/-! ## Examples -/

/-- The constant velocity model measured in its position. -/
example : ∃ X, Steady !![1, 2; 0, 1] (diagonal ![1, 1]) !![1, 0] (diagonal fun _ : Fin 1 => 1) X ∧
    ∀ (g' : Gaussian) (m' : Fin 2 → ℝ) (P' : Matrix (Fin 2) (Fin 2) ℝ), P'.PosDef → HasMoments calmEnv g' m' P' →
      ∃ ρ κ, 0 < ρ ∧ ρ < 1 ∧ ∀ (ys : List Arr) (y : ℕ → Fin 1 → ℝ), (∀ i a, ys[i]? = some a → IsVec a.squeeze (y i)) →
        ∃ fs, (demoKFS (taylorTransform calmEnv exactJac)).kalmanFilter calmEnv ys (some g') 0 none = .ok fs ∧ fs.length = ys.length ∧
          ∀ i < ys.length, ∃ f, ∃ μ : Fin 2 → ℝ, ∃ C, fs[i]? = some f ∧ HasMoments calmEnv f μ C ∧ ∀ j l, |C j l - X j l| ≤ κ * ρ ^ i := by
  obtain ⟨X, h1, -, h2⟩ := C87_filter_steady demoSpace_good demo_describes (fun _ => rfl) (fun _ => rfl) demoSpace_detectable
  exact ⟨X, h1, h2⟩

/-- A random walk with process noise 3/2 measured with noise 3: the steady variance is 3/2. -/
example : Steady (1 : Matrix (Fin 1) (Fin 1) ℝ) (diagonal fun _ => 3 / 2) (1 : Matrix (Fin 1) (Fin 1) ℝ) (diagonal fun _ => 3) (diagonal fun _ => 3 / 2) := by
  refine ⟨posDef_scalar (by norm_num), _, rfl, ?_⟩
  have : ((1 : Matrix (Fin 1) (Fin 1) ℝ) * (1 * (diagonal fun _ => 3 / 2) * 1ᵀ + diagonal fun _ => 3 / 2) * 1ᵀ + diagonal fun _ => 3)⁻¹ =
      diagonal fun _ => 1 / 6 := by
    refine inv_eq_right_inv ?_
    ext i j
    fin_cases i; fin_cases j
    simp [Matrix.mul_apply]
    norm_num
  rw [this]
  ext i j
  fin_cases i; fin_cases j
  simp
  norm_num

/-- Measurements up to 10. -/
example : ∃ ρ κ, 0 < ρ ∧ ρ < 1 ∧ ∀ (ys zs : List Arr) (y : ℕ → Fin 1 → ℝ), (∀ i a, (ys ++ zs)[i]? = some a → IsVec a.squeeze (y i)) →
    (∀ i j, |y i j| ≤ 10) → ys ≠ [] →
    ∃ fs fs' rs rs', (demoKFS (taylorTransform calmEnv exactJac)).kalmanFilter calmEnv ys none 0 none = .ok fs ∧
      (demoKFS (taylorTransform calmEnv exactJac)).kalmanFilter calmEnv (ys ++ zs) none 0 none = .ok fs' ∧
      (demoKFS (taylorTransform calmEnv exactJac)).kalmanSmoother calmEnv fs none = .ok rs ∧
      (demoKFS (taylorTransform calmEnv exactJac)).kalmanSmoother calmEnv fs' none = .ok rs' ∧
      ∀ i d, i + 1 + d = ys.length → ∃ r r', ∃ μ μ' : Fin 2 → ℝ, ∃ C C', rs[i]? = some r ∧ rs'[i]? = some r' ∧ HasMoments calmEnv r μ C ∧
        HasMoments calmEnv r' μ' C' ∧ (∀ j, |μ j - μ' j| ≤ κ * ρ ^ d) ∧ ∀ j l, |C j l - C' j l| ≤ κ * ρ ^ d :=
  C87_smoother_lag (prior := none) demoSpace_good demo_describes (fun _ => rfl) (fun _ => rfl) (fun _ => rfl) (fun _ => rfl) demoSpace_detectable 10

end Verif
