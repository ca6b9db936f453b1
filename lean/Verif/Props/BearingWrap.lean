import Verif.Props.Bearings
import Verif.Lemmas.Kalman

/-!
# Bearings that differ by a whole turn: C63 for the Kalman correction
-/

namespace Verif

open Matrix Gaussian

variable {env : Env} {n k : ℕ}

/-- C63: adding a whole turn to measurement `i` names the same direction, yet moves the corrected mean by `2π` times the gain of that
measurement; the covariance stays.  For any transform. -/
theorem C63_wrap {K : KFS} {g : Gaussian} {t u : Option ℝ} {μ : Fin n → ℝ} {P : Matrix (Fin n) (Fin n) ℝ} (hg : HasMoments env g μ P)
    {z : Arr} {zv : Fin k → ℝ} {S R : Matrix (Fin k) (Fin k) ℝ} {C : Matrix (Fin n) (Fin k) ℝ}
    (hT : K.measTransform (fun w => K.measurement w t u) g = .ok (z, .m S, .m C)) (hz : IsVec z zv) (hR : K.R = .m R)
    (hS : (S + R).PosDef) (i : Fin k) (y : Fin k → ℝ) :
    ∃ (a b : Gaussian) (m : Fin n → ℝ) (V : Matrix (Fin n) (Fin n) ℝ), K.correct env g (.v y) t u = .ok a ∧
      K.correct env g (.v fun j => if j = i then y j + 2 * Real.pi else y j) t u = .ok b ∧ HasMoments env a m V ∧
      HasMoments env b (m + C *ᵥ fun j => 2 * Real.pi * (S + R)⁻¹ j i) V := by
  have hd := posDef_det_ne hS
  refine ⟨_, _, _, _, KFS.correct_of hg hT hz (.inl rfl) hR hd, KFS.correct_of hg hT hz (.inl rfl) hR hd, hasMoments_ofMoment .., ?_⟩
  have e : μ + ((S + R)⁻¹ * Cᵀ)ᵀ *ᵥ ((fun j => if j = i then y j + 2 * Real.pi else y j) - zv) =
      μ + ((S + R)⁻¹ * Cᵀ)ᵀ *ᵥ (y - zv) + C *ᵥ fun j => 2 * Real.pi * (S + R)⁻¹ j i := by
    have h1 : ((fun j => if j = i then y j + 2 * Real.pi else y j) - zv) = (y - zv) + (2 * Real.pi) • Pi.single i 1 := by
      funext j
      rcases eq_or_ne j i with rfl | h
      · simp; ring
      · simp [h]
    have h2 : (S + R)⁻¹ᵀ = (S + R)⁻¹ := by
      have := hS.isHermitian.inv
      rwa [IsHermitian, conjTranspose_eq_transpose_of_trivial] at this
    have h3 : (fun j => 2 * Real.pi * (S + R)⁻¹ j i) = (2 * Real.pi) • ((S + R)⁻¹ *ᵥ Pi.single i 1) := by
      funext j; simp
    rw [h1, mulVec_add, add_assoc, h3, transpose_mul, transpose_transpose, h2, ← mulVec_mulVec, ← mulVec_mulVec, mulVec_smul]
  rw [e]
  exact hasMoments_ofMoment ..

/-- The derivative of a bearing in the direction of a turn around the sensor is one. -/
private theorem bearing_deriv {ix iy : Fin n} (hxy : ix ≠ iy) (s : Sensor) {μ : Fin n → ℝ} (hpos : s.1 < μ ix ∨ μ iy ≠ s.2) :
    ∃ (F' : (Fin n → ℝ) →L[ℝ] ℝ) (v : Fin n → ℝ), HasFDerivAt (fun x : Fin n → ℝ => arctan2 (x iy - s.2) (x ix - s.1)) F' μ ∧ F' v = 1 := by
  have hz : (⟨μ ix - s.1, μ iy - s.2⟩ : ℂ) ∈ Complex.slitPlane := hpos.imp (fun h => sub_pos.2 h) fun h => sub_ne_zero.2 h
  set w : ℂ := ⟨μ ix - s.1, μ iy - s.2⟩ with hw
  let A : (Fin n → ℝ) →L[ℝ] ℂ := Complex.ofRealCLM.comp (ContinuousLinearMap.proj ix) +
    Complex.I • Complex.ofRealCLM.comp (ContinuousLinearMap.proj iy)
  have hA : ∀ x, A x = ⟨x ix, x iy⟩ := fun x => by apply Complex.ext <;> simp [A]
  have h1 : HasFDerivAt (fun x : Fin n → ℝ => (⟨x ix - s.1, x iy - s.2⟩ : ℂ)) A μ := by
    have : (fun x : Fin n → ℝ => (⟨x ix - s.1, x iy - s.2⟩ : ℂ)) = fun x => A x - ⟨s.1, s.2⟩ := by
      funext x; rw [hA]; apply Complex.ext <;> simp
    rw [this]
    exact A.hasFDerivAt.sub_const _
  have h2 := ((Complex.hasDerivAt_log hz).hasFDerivAt.restrictScalars ℝ).comp μ h1
  have h3 := Complex.imCLM.hasFDerivAt.comp μ h2
  have hw0 : w ≠ 0 := Complex.slitPlane_ne_zero hz
  refine ⟨_, fun j => if j = ix then -w.im else if j = iy then w.re else 0,
    h3.congr_of_eventuallyEq (.of_forall fun x => (Complex.log_im _).symm), ?_⟩
  · have e : A (fun j => if j = ix then -w.im else if j = iy then w.re else 0) = Complex.I * w := by
      rw [hA]; apply Complex.ext <;> simp [hxy.symm]
    simp only [ContinuousLinearMap.comp_apply, e, ContinuousLinearMap.coe_restrictScalars', ContinuousLinearMap.toSpanSingleton_apply,
      smul_eq_mul, mul_assoc, mul_inv_cancel₀ hw0]
    simp

/-- C63: an extended Kalman filter with two or more bearing sensors and equally noisy independent bearings always gives different means
for a bearing and the same bearing plus a whole turn, whatever the state and the data.  (With one sensor it fails, C61.) -/
theorem C63_wrap_ekf {K : KFS} {jac : Jac} (hjac : CorrectJac jac) (hK : K.measTransform = taylorTransform env jac) {ix iy : Fin n}
    (hxy : ix ≠ iy) {l : List Sensor} (hl : 2 ≤ l.length) {t u : Option ℝ} (hm : ∀ x, K.measurement x t u = bearings ix iy l x)
    {r : ℝ} (hr : 0 < r) (hR : K.R = .m (r • (1 : Matrix (Fin l.length) (Fin l.length) ℝ))) {g : Gaussian} {μ : Fin n → ℝ}
    {P : Matrix (Fin n) (Fin n) ℝ} (hg : HasMoments env g μ P) (hP : P.PosDef) (hpos : ∀ s ∈ l, s.1 < μ ix ∨ μ iy ≠ s.2)
    (i : Fin l.length) (y : Fin l.length → ℝ) :
    ∃ (a b : Gaussian) (m m' : Fin n → ℝ) (V : Matrix (Fin n) (Fin n) ℝ), K.correct env g (.v y) t u = .ok a ∧
      K.correct env g (.v fun j => if j = i then y j + 2 * Real.pi else y j) t u = .ok b ∧ HasMoments env a m V ∧
      HasMoments env b m' V ∧ m ≠ m' := by
  choose F' v hF hv using fun i : Fin l.length => bearing_deriv hxy (l.get i) (hpos _ (l.get_mem i))
  have hn : n ≠ 1 := by rintro rfl; exact hxy (Subsingleton.elim _ _)
  have hl0 : l ≠ [] := by rintro rfl; simp at hl
  have hrow : RowFunc (fun x => K.measurement x t u) fun (x : Fin n → ℝ) s => arctan2 (x iy - (l.get s).2) (x ix - (l.get s).1) :=
    fun x => (hm _).trans (bearings_vec ix iy l hl0 x)
  have hT := C17_taylor_linearises_rows (env := env) hjac hn (by omega) hg hrow (hasFDerivAt_pi.2 hF)
  rw [← hK] at hT
  set J := jacMat (ContinuousLinearMap.pi F') with hJ
  have hRp : (r • (1 : Matrix (Fin l.length) (Fin l.length) ℝ)).PosDef := PosDef.one.smul hr
  have hS : (J * P * Jᵀ + r • 1).PosDef := innov_posDef hP.posSemidef hRp J
  obtain ⟨a, b, m, V, h1, h2, h3, h4⟩ := C63_wrap hg hT (.inl rfl) hR hS i y
  refine ⟨a, b, m, _, V, h1, h2, h3, h4, fun h => ?_⟩
  set S := J * P * Jᵀ + r • (1 : Matrix (Fin l.length) (Fin l.length) ℝ) with hSd
  set w := S⁻¹ *ᵥ Pi.single i 1 with hw
  have e0 : (P * Jᵀ) *ᵥ w = 0 := by
    have h5 : (fun j => 2 * Real.pi * S⁻¹ j i) = (2 * Real.pi) • w := by funext j; simp [hw]
    rw [h5, mulVec_smul, left_eq_add] at h
    exact (smul_eq_zero.1 h).resolve_left (by positivity)
  have e1 : Jᵀ *ᵥ w = 0 := by
    rw [← mulVec_mulVec] at e0
    have := congrArg (P⁻¹ *ᵥ ·) e0
    simp only [mulVec_zero] at this
    rwa [mulVec_mulVec, nonsing_inv_mul _ (Ne.isUnit (posDef_det_ne hP)), one_mulVec] at this
  have e2 : S *ᵥ w = Pi.single i 1 := by
    rw [hw, mulVec_mulVec, mul_nonsing_inv _ (Ne.isUnit (posDef_det_ne hS)), one_mulVec]
  rw [hSd, add_mulVec, ← mulVec_mulVec, e1, mulVec_zero, zero_add, smul_mulVec, one_mulVec] at e2
  have e3 : Jᵀ *ᵥ Pi.single i 1 = 0 := by rw [← e2, mulVec_smul, e1, smul_zero]
  have e4 : ∀ j, J i j = 0 := fun j => by simpa using congrFun e3 j
  have e5 : F' i (v i) = 0 := by
    rw [← Finset.univ_sum_single (v i), map_sum]
    refine Finset.sum_eq_zero fun j _ => ?_
    have h6 : (Pi.single j (v i j) : Fin n → ℝ) = v i j • Pi.single j 1 := by rw [← Pi.single_smul, smul_eq_mul, mul_one]
    have h7 : F' i (Pi.single j 1) = 0 := by simpa [hJ, jacMat] using e4 j
    rw [h6, map_smul, h7, smul_zero]
  exact one_ne_zero ((hv i).symm.trans e5)

/-- A bearings-only tracker with two sensors. -/
noncomputable def twoBearings : KFS where
  transform := taylorTransform calmEnv exactJac
  measTransform := taylorTransform calmEnv exactJac
  transition := BOT.f 1
  measurement := BOT.h (some [(-10, -10), (10, -10)])
  Q := .m (1 : Matrix (Fin 4) (Fin 4) ℝ)
  R := .m ((2 : ℝ) • (1 : Matrix (Fin 2) (Fin 2) ℝ))
  initState := ofMoment (.v (0 : Fin 4 → ℝ)) (.m (1 : Matrix (Fin 4) (Fin 4) ℝ))
  dt := 1

/-- Two sensors, a target at the origin. -/
example (y : Fin 2 → ℝ) : ∃ (a b : Gaussian) (m m' : Fin 4 → ℝ) (V : Matrix (Fin 4) (Fin 4) ℝ),
    twoBearings.correct calmEnv twoBearings.initState (.v y) none none = .ok a ∧
    twoBearings.correct calmEnv twoBearings.initState (.v fun j : Fin 2 => if j = 1 then y j + 2 * Real.pi else y j) none none = .ok b ∧
    HasMoments calmEnv a m V ∧ HasMoments calmEnv b m' V ∧ m ≠ m' :=
  C63_wrap_ekf (K := twoBearings) exactJac_correct rfl (ix := 0) (iy := 1) (by decide) (l := [(-10, -10), (10, -10)]) (by simp)
    (fun _ => rfl) (by norm_num) rfl (hasMoments_ofMoment calmEnv (0 : Fin 4 → ℝ) 1) PosDef.one (fun s hs => .inr (by
      rcases List.mem_cons.1 hs with rfl | hs
      · norm_num
      · obtain rfl := List.mem_singleton.1 hs
        norm_num)) 1 y

end Verif
