import Verif.Props.Order

/-!
# C114: how certain filter and smoother can and must be
-/

namespace Verif

open Matrix

variable {env : Env} {n k : ℕ}

/-- Every state of a run of `N` steps has a positive definite covariance; at step `i` it is at least the inverse of `J i`, and at most
what any linear function `G` of the measurement of this step that recovers the state has as covariance. -/
def ReportsBetween (env : Env) (N : ℕ) (J : ℕ → Matrix (Fin n) (Fin n) ℝ) (H : ℕ → Matrix (Fin k) (Fin n) ℝ) (R : Matrix (Fin k) (Fin k) ℝ)
    (gs : List Gaussian) : Prop :=
  gs.length = N ∧ ∀ i < N, ∃ (g : Gaussian) (m : Fin n → ℝ) (C : Matrix (Fin n) (Fin n) ℝ), gs[i]? = some g ∧ HasMoments env g m C ∧
    C.PosDef ∧ Below (J i)⁻¹ C ∧ ∀ G : Matrix (Fin n) (Fin k) ℝ, G * H i = 1 → Below C (G * R * Gᵀ)

namespace StateSpace

variable {L : StateSpace n k} {y : ℕ → Fin k → ℝ}

private theorem inv_below {C J : Matrix (Fin n) (Fin n) ℝ} (hC : C.PosDef) (hJ : J.PosDef) (h : ∀ u, quad C⁻¹ u ≤ quad J u) : Below J⁻¹ C := fun u => by
  have := quad_inv_le hC.inv hJ h u
  rwa [nonsing_inv_nonsing_inv _ (posDef_isUnit hC)] at this

private theorem info_pos {P : Matrix (Fin n) (Fin n) ℝ} (hP : P.PosDef) {l : ℕ} {S : Matrix (Fin l) (Fin l) ℝ} (hS : S.PosDef)
    (M : Matrix (Fin l) (Fin n) ℝ) : (P + Mᵀ * S⁻¹ * M).PosDef := by
  have h := innov_posDef hS.inv.posSemidef hP Mᵀ
  rwa [transpose_transpose, add_comm] at h

theorem Good.filt_info (h : L.Good) (i : ℕ) (u : Fin n → ℝ) :
    quad (L.filt y (i + 1)).2⁻¹ u ≤ quad (L.Q⁻¹ + (L.H i)ᵀ * L.R⁻¹ * L.H i) u := by
  show quad (condCov _ (L.H i) L.R)⁻¹ u ≤ _
  rw [condCov_inv (h.pred i) h.R, quad_add_mat, quad_add_mat]
  have := quad_inv_le h.Q (h.pred (y := y) i) (fun v => by
    rw [quad_add_mat]
    have := quad_nonneg (congr_posSemidef (h.filt (y := y) i).posSemidef (L.A i)) v
    linarith) u
  linarith

theorem Good.filt_floor (h : L.Good) (i : ℕ) : Below (L.Q⁻¹ + (L.H i)ᵀ * L.R⁻¹ * L.H i)⁻¹ (L.filt y (i + 1)).2 :=
  inv_below (h.filt (i + 1)) (info_pos h.Q.inv h.R _) (h.filt_info i)

theorem Good.filt_ceil (h : L.Good) (i : ℕ) {G : Matrix (Fin n) (Fin k) ℝ} (hG : G * L.H i = 1) : Below (L.filt y (i + 1)).2 (G * L.R * Gᵀ) := fun u => by
  have := condCov_optimal (h.pred (y := y) i) h.R (L.H i) G u
  rw [hG, sub_self, Matrix.zero_mul, Matrix.zero_mul, zero_add] at this
  exact this

theorem Good.smth_floor (h : L.Good) (i d : ℕ) :
    Below (L.Q⁻¹ + (L.H i)ᵀ * L.R⁻¹ * L.H i + (L.A (i + 1))ᵀ * L.Q⁻¹ * L.A (i + 1))⁻¹ (L.smth y (i + 1) d).2 := by
  have hJ := info_pos (info_pos h.Q.inv h.R (L.H i)) h.Q (L.A (i + 1))
  cases d with
  | zero =>
    refine inv_below (h.filt (i + 1)) hJ fun u => ?_
    show quad (L.filt y (i + 1)).2⁻¹ u ≤ _
    rw [quad_add_mat, quad_congr]
    have := h.filt_info (y := y) i u
    have := quad_nonneg h.Q.inv.posSemidef (L.A (i + 1) *ᵥ u)
    linarith
  | succ d =>
    refine fun u => (inv_below (condCov_posDef (h.filt (y := y) (i + 1)) h.Q (L.A (i + 1))) hJ (fun v => ?_) u).trans ?_
    · rw [condCov_inv (h.filt (i + 1)) h.Q, quad_add_mat, quad_add_mat]
      have := h.filt_info (y := y) i v
      linarith
    · have h1 := quad_nonneg (congr_posSemidef (h.smth (y := y) d (i + 2)).posSemidef (L.gain y (i + 1))) u
      show quad _ u ≤ quad (L.gain y (i + 1) * (L.smth y (i + 2) d).2 * (L.gain y (i + 1))ᵀ + condCov (L.filt y (i + 1)).2 (L.A (i + 1)) L.Q) u
      rw [quad_add_mat]
      linarith

end StateSpace

variable {K : KFS} {u : Option ℝ} {prior : Option Gaussian} {t₀ : ℝ} {L : StateSpace n k} {ys : List Arr} {y : ℕ → Fin k → ℝ}

/-- **C114.** On a linear system no state returned by the filter has a covariance below what is left of the process noise after one
measurement, nor above what the measurement of its step alone gives (if it determines the state), whatever prior, measurements and length. -/
theorem C114_filter (hL : L.Good) (hK : Describes env K u t₀ (prior.getD K.initState) L)
    (hy : ∀ i a, ys[i]? = some a → IsVec a.squeeze (y i)) :
    ∃ fs, K.kalmanFilter env ys prior t₀ u = .ok fs ∧
      ReportsBetween env ys.length (fun i => L.Q⁻¹ + (L.H i)ᵀ * L.R⁻¹ * L.H i) L.H L.R fs := by
  obtain ⟨fs, h1, h2, h3⟩ := hK.filter hL hy
  refine ⟨fs, h1, h2, fun i hi => ?_⟩
  obtain ⟨g, h4, h5⟩ := h3 i hi
  exact ⟨g, _, _, h4, h5, hL.filt (i + 1), hL.filt_floor i, fun G hG => hL.filt_ceil i hG⟩

/-- **C114.** The same for the smoother: here the following transition adds as much precision as it would if the next state were known
exactly. -/
theorem C114_smoother (hL : L.Good) (hK : Describes env K u 0 (prior.getD K.initState) L)
    (hy : ∀ i a, ys[i]? = some a → IsVec a.squeeze (y i)) (hne : ys ≠ []) :
    ∃ fs rs, K.kalmanFilter env ys prior 0 u = .ok fs ∧ K.kalmanSmoother env fs u = .ok rs ∧
      ReportsBetween env ys.length (fun i => L.Q⁻¹ + (L.H i)ᵀ * L.R⁻¹ * L.H i + (L.A (i + 1))ᵀ * L.Q⁻¹ * L.A (i + 1)) L.H L.R rs := by
  obtain ⟨fs, rs, h0, h1, h2, h3⟩ := hK.smoother hL hy hne
  refine ⟨fs, rs, h0, h1, h2, fun i hi => ?_⟩
  obtain ⟨g, h4, h5⟩ := h3 i hi
  refine ⟨g, _, _, h4, h5, hL.smth _ _, hL.smth_floor i _, fun G hG u => ?_⟩
  have h6 := hL.longer (i + 1) (Nat.zero_le (ys.length - (i + 1))) u
  rw [← L.smth_cov' y 0] at h6
  exact h6.trans (hL.filt_ceil (y := 0) i hG u)

-- position and velocity measured with variances 1 and 4: the variance of the position never exceeds 1
example (ys : List Arr) (y : ℕ → Fin 2 → ℝ) (hy : ∀ i a, ys[i]? = some a → IsVec a.squeeze (y i)) :
    ∃ fs, twoSensorKFS.kalmanFilter calmEnv ys none 0 none = .ok fs ∧ fs.length = ys.length ∧
      ∀ i < ys.length, ∃ (g : Gaussian) (m : Fin 2 → ℝ) (C : Matrix (Fin 2) (Fin 2) ℝ), fs[i]? = some g ∧ HasMoments calmEnv g m C ∧ 0 < C 0 0 ∧ C 0 0 ≤ 1 := by
  have hd : Describes calmEnv twoSensorKFS none 0 ((none : Option Gaussian).getD twoSensorKFS.initState) twoSensors :=
    ⟨fun _ => C20_taylor_exact calmEnv exactJac_correct (.inl (affineFunc_vec _ _)),
      fun _ => C20_taylor_exact calmEnv exactJac_correct (.inl (affineFunc_vec _ _)), rfl, rfl, hasMoments_ofMoment _ _ _⟩
  obtain ⟨fs, h1, h2, h3⟩ := C114_filter (prior := none) (L := twoSensors)
    ⟨demoSpace_good.P0, demoSpace_good.Q, PosDef.diagonal fun i => by fin_cases i <;> norm_num⟩ hd hy
  refine ⟨fs, h1, h2, fun i hi => ?_⟩
  obtain ⟨g, m, C, h4, h5, h6, -, h7⟩ := h3 i hi
  have h8 := h7 1 (by rw [Matrix.one_mul]; ext a b; fin_cases a <;> fin_cases b <;> rfl) ![1, 0]
  refine ⟨g, m, C, h4, h5, h6.diag_pos, ?_⟩
  simpa [twoSensors, dotProduct, mulVec, Fin.sum_univ_two, diagonal] using h8

end Verif
