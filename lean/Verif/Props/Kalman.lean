import Verif.Lemmas.Kalman
import Verif.Props.Transforms

/-!
# Properties of the Kalman filter and smoother steps (C20 – C23)
-/

namespace Verif

open Matrix

/-! ## C20 -/

/-- **C20.** The unscented transform is exact on every affine function (in the sense used below). -/
theorem C20_unscented_exact (env : Env) {n k : ℕ} {alpha beta kappa : ℝ} {u : UT} (hu : UT.init n alpha beta kappa = .ok u)
    (hpos : 0 < alpha ^ 2 * (n + kappa)) {func : Func} {A : Matrix (Fin k) (Fin n) ℝ} {b : Fin k → ℝ}
    (hf : AffineRows func A b) : ExactOn env (u.transform env) func A b := fun _ _ _ hg hP =>
  ⟨_, .inl rfl, C15_unscented_exact_affine hu hpos hg hP hf⟩

/-- **C20.** The Taylor transform is exact on every affine function, with the shape restrictions of C17. -/
theorem C20_taylor_exact (env : Env) {n k : ℕ} {jac : Jac} (hjac : CorrectJac jac) {func : Func}
    {A : Matrix (Fin k) (Fin n) ℝ} {b : Fin k → ℝ}
    (hf : VecFunc func (fun x => A *ᵥ x + b) ∨ (RowFunc func (fun x => A *ᵥ x + b) ∧ n ≠ 1 ∧ k ≠ 1)) :
    ExactOn env (taylorTransform env jac) func A b := by
  intro g μ P hg _
  rcases hf with hf | ⟨hf, hn, hk⟩
  · exact ⟨_, .inr rfl, (C17_taylor_exact_affine hjac hg).1 hf⟩
  · exact ⟨_, .inl rfl, (C17_taylor_exact_affine hjac hg).2 hf hn hk⟩

/-- **C20.** `predict` is the exact time update. -/
theorem C20_predict_affine (env : Env) (K : KFS) {n k : ℕ} {t u : Option ℝ} {A : Matrix (Fin k) (Fin n) ℝ} {b : Fin k → ℝ}
    (hT : ExactOn env K.transform (fun x => K.transition x t u) A b) {Q : Matrix (Fin k) (Fin k) ℝ} (hQ : K.Q = .m Q)
    {g : Gaussian} {μ : Fin n → ℝ} {P : Matrix (Fin n) (Fin n) ℝ} (hg : HasMoments env g μ P) (hP : P.PosDef) :
    ∃ r, K.predict g t u = .ok r ∧ HasMoments env r (A *ᵥ μ + b) (A * P * Aᵀ + Q) ∧
      (Q.PosDef → (A * P * Aᵀ + Q).PosDef) := by
  obtain ⟨y, hy, h⟩ := hT g μ P hg hP
  exact ⟨_, KFS.predict_of h hy hQ, hasMoments_ofMoment _ _ _, fun hQ' => innov_posDef hP.posSemidef hQ' A⟩

/-- A filter on the plane with a shear as transition and a measurement of the first coordinate, unscented transform. -/
noncomputable def demoKFS (T : Transform) : KFS :=
  KFS.init T
    { transition := affineSys !![1, 2; 0, 1] ![5, 6]
      measurement := affineSys !![1, 0] ![1]
      Q := .m (diagonal ![1, 1]), R := .m (diagonal fun _ : Fin 1 => 1)
      initState := Gaussian.ofMoment (.v ![1, 1]) (.m (diagonal ![2, 3])), dt := 1 } none

example : ∃ r, (demoKFS (taylorTransform calmEnv exactJac)).predict
      (Gaussian.ofMoment (.v ![1, 1]) (.m (diagonal ![2, 3]))) (some 0) none = .ok r ∧
    HasMoments calmEnv r (!![1, 2; 0, 1] *ᵥ ![1, 1] + ![5, 6]) (!![1, 2; 0, 1] * diagonal ![2, 3] * !![1, 2; 0, 1]ᵀ + diagonal ![1, 1]) := by
  obtain ⟨r, h1, h2, -⟩ := C20_predict_affine calmEnv (demoKFS (taylorTransform calmEnv exactJac)) (t := some 0) (u := none)
    (C20_taylor_exact calmEnv exactJac_correct (.inl (affineFunc_vec _ _))) rfl
    (hasMoments_ofMoment calmEnv ![1, 1] (diagonal ![2, 3])) posDef_two
  exact ⟨r, h1, h2⟩

/-! ## C21 -/

/-- **C21.** `correct` is exact Bayesian conditioning: precision `P⁻¹ + H' R⁻¹ H`, shift `P⁻¹ m + H' R⁻¹ (y - c)`, and the density
is the prior density times the likelihood up to a positive constant. -/
theorem C21_correct_is_bayes (env : Env) (K : KFS) {n k : ℕ} {t u : Option ℝ} {H : Matrix (Fin k) (Fin n) ℝ} {c : Fin k → ℝ}
    (hT : ExactOn env K.measTransform (fun x => K.measurement x t u) H c) {R : Matrix (Fin k) (Fin k) ℝ} (hR : K.R = .m R)
    (hR' : R.PosDef) {g : Gaussian} {m : Fin n → ℝ} {P : Matrix (Fin n) (Fin n) ℝ} (hg : HasMoments env g m P) (hP : P.PosDef)
    {meas : Arr} {y : Fin k → ℝ} (hy : IsVec meas y) :
    ∃ r m' C', K.correct env g meas t u = .ok r ∧ HasMoments env r m' C' ∧ C'.PosDef ∧
      C'⁻¹ = P⁻¹ + Hᵀ * R⁻¹ * H ∧ C'⁻¹ *ᵥ m' = P⁻¹ *ᵥ m + (Hᵀ * R⁻¹) *ᵥ (y - c) ∧
      ∃ Z > 0, ∀ x, unnormMoment m P x * unnormMoment (H *ᵥ x + c) R y = Z * unnormMoment m' C' x := by
  obtain ⟨z, hz, h⟩ := hT g m P hg hP
  have hS := innov_posDef hP.posSemidef hR' H
  have hc := KFS.correct_of hg h hz hy hR (posDef_det_ne hS)
  have hK : ((H * P * Hᵀ + R)⁻¹ * (P * Hᵀ)ᵀ)ᵀ = gainMat P H R := by
    rw [transpose_mul, transpose_transpose, posDef_inv_symm hS, gainMat]
  rw [hK] at hc
  refine ⟨_, condMean m P H c R y, condCov P H R, hc, hasMoments_ofMoment _ _ _, condCov_posDef hP hR' H, condCov_inv hP hR' H,
    info_mulVec_condMean hP hR' H m c y, Real.exp (-(quad (H * P * Hᵀ + R)⁻¹ (y - (H *ᵥ m + c))) / 2), Real.exp_pos _, ?_⟩
  intro x
  have := bayes_quad hP hR' H m c y x
  simp only [quad] at this
  simp only [unnormMoment, ← Real.exp_add, quad]
  congr 1
  linarith

example : ∃ r, (demoKFS (taylorTransform calmEnv exactJac)).correct calmEnv
      (Gaussian.ofMoment (.v ![1, 1]) (.m (diagonal ![2, 3]))) (.s 4) (some 0) none = .ok r ∧
    ∃ (m' : Fin 2 → ℝ) (C' : Matrix (Fin 2) (Fin 2) ℝ), HasMoments calmEnv r m' C' ∧ C'.PosDef := by
  obtain ⟨r, m', C', h1, h2, h3, -⟩ := C21_correct_is_bayes calmEnv (demoKFS (taylorTransform calmEnv exactJac)) (t := some 0) (u := none)
    (C20_taylor_exact calmEnv exactJac_correct (.inl (affineFunc_vec _ _))) rfl (posDef_scalar one_pos)
    (hasMoments_ofMoment calmEnv ![1, 1] (diagonal ![2, 3])) posDef_two (meas := .s 4) (y := ![4]) (.inr (by simp))
  exact ⟨r, h1, m', C', h2, h3⟩

/-! ## C22 -/

/-- **C22.** Whatever the transform and the measurement function: if the innovation covariance is positive definite, a correction
that returns has a covariance below the prior covariance in the Loewner order. -/
theorem C22_correct_reduces_uncertainty (env : Env) (K : KFS) {n k : ℕ} {t u : Option ℝ} {g : Gaussian}
    {m : Fin n → ℝ} {P : Matrix (Fin n) (Fin n) ℝ} (hg : HasMoments env g m P) {z meas : Arr} {S0 R : Matrix (Fin k) (Fin k) ℝ}
    {C : Matrix (Fin n) (Fin k) ℝ} (hT : K.measTransform (fun x => K.measurement x t u) g = .ok (z, .m S0, .m C))
    (hR : K.R = .m R) (hS : (S0 + R).PosDef) {r : Gaussian} (hr : K.correct env g meas t u = .ok r) :
    ∃ C', r.cov env = .ok (some (.m C')) ∧ (P - C').PosSemidef := by
  simp only [KFS.correct, hT, ok_bind, hR, Arr.iadd_mm, Arr.T_m, npSolve_mm _ (posDef_det_ne hS), hg.meanA, hg.covA,
    Arr.dot_mm, Arr.sub_mm] at hr
  obtain ⟨d, -, hr⟩ := py_bind_ok hr
  obtain ⟨e, -, hr⟩ := py_bind_ok hr
  obtain ⟨f, -, hr⟩ := py_bind_ok hr
  simp only [py_pure, Except.ok.injEq] at hr
  subst hr
  refine ⟨_, Gaussian.cov_ofMoment _ _ _, ?_⟩
  rw [sub_sub_cancel, transpose_mul, transpose_transpose, posDef_inv_symm hS]
  exact congr_posSemidef hS.inv.posSemidef C

example : ∃ (r : Gaussian) (C' : Matrix (Fin 2) (Fin 2) ℝ), (demoKFS (taylorTransform calmEnv exactJac)).correct calmEnv
      (Gaussian.ofMoment (.v ![1, 1]) (.m (diagonal ![2, 3]))) (.s 4) (some 0) none = .ok r ∧
    r.cov calmEnv = .ok (some (.m C')) ∧ (diagonal ![2, 3] - C').PosSemidef := by
  have hT := (C17_taylor_exact_affine (env := calmEnv) exactJac_correct
    (hasMoments_ofMoment calmEnv ![1, 1] (diagonal ![(2 : ℝ), 3]))).1 (affineFunc_vec !![1, 0] ![1])
  obtain ⟨r, m', C', h1, h2, h3, -⟩ := C21_correct_is_bayes calmEnv (demoKFS (taylorTransform calmEnv exactJac)) (t := some 0) (u := none)
    (C20_taylor_exact calmEnv exactJac_correct (.inl (affineFunc_vec _ _))) rfl (posDef_scalar one_pos)
    (hasMoments_ofMoment calmEnv ![1, 1] (diagonal ![2, 3])) posDef_two (meas := .s 4) (y := ![4]) (.inr (by simp))
  obtain ⟨C'', h4, h5⟩ := C22_correct_reduces_uncertainty calmEnv (demoKFS (taylorTransform calmEnv exactJac))
    (hasMoments_ofMoment calmEnv ![1, 1] (diagonal ![(2 : ℝ), 3])) hT rfl
    (innov_posDef posDef_two.posSemidef (posDef_scalar one_pos) !![1, 0]) h1
  exact ⟨r, C'', h1, h4, h5⟩

/-! ## C23 -/

/-- **C23.** The smoothing step for any transform: `J S_pred = C`, mean `m + J (ν - x_pred)`, covariance `P + J (S - S_pred) J'`; if
the next state is exactly the prediction the result is the filtered state; if the next state is at most as uncertain as the
prediction, the result is at most as uncertain as the filtered state. -/
theorem C23_smooth_step (env : Env) (K : KFS) {n k : ℕ} {t u : Option ℝ} {g next : Gaussian}
    {m : Fin n → ℝ} {P : Matrix (Fin n) (Fin n) ℝ} (hg : HasMoments env g m P)
    {ν : Fin k → ℝ} {S : Matrix (Fin k) (Fin k) ℝ} (hn : HasMoments env next ν S)
    {x : Arr} {xv : Fin k → ℝ} {S0 Q : Matrix (Fin k) (Fin k) ℝ} {C : Matrix (Fin n) (Fin k) ℝ}
    (hT : K.transform (fun x => K.transition x t u) g = .ok (x, .m S0, .m C)) (hx : IsVec x xv) (hQ : K.Q = .m Q)
    (hS : (S0 + Q).PosDef) :
    ∃ (r : Gaussian) (J : Matrix (Fin n) (Fin k) ℝ), K.smooth env g next t u = .ok r ∧ J * (S0 + Q) = C ∧
      HasMoments env r (m + J *ᵥ (ν - xv)) (P + J * (S - (S0 + Q)) * Jᵀ) ∧
      (ν = xv → S = S0 + Q → HasMoments env r m P) ∧
      ((S0 + Q - S).PosSemidef → (P - (P + J * (S - (S0 + Q)) * Jᵀ)).PosSemidef) := by
  have h := KFS.smooth_of hg hn hT hx hQ (posDef_det_ne hS)
  refine ⟨_, ((S0 + Q)⁻¹ * Cᵀ)ᵀ, h, ?_, hasMoments_ofMoment _ _ _, ?_, ?_⟩
  · rw [transpose_mul, transpose_transpose, posDef_inv_symm hS, Matrix.mul_assoc, posDef_inv_mul hS, Matrix.mul_one]
  · intro h1 h2
    have := hasMoments_ofMoment env (m + ((S0 + Q)⁻¹ * Cᵀ)ᵀ *ᵥ (ν - xv))
      (P + ((S0 + Q)⁻¹ * Cᵀ)ᵀ * (S - (S0 + Q)) * (((S0 + Q)⁻¹ * Cᵀ)ᵀ)ᵀ)
    rw [h1, h2] at this ⊢
    simpa using this
  · intro h1
    have := congr_posSemidef h1 (((S0 + Q)⁻¹ * Cᵀ)ᵀ)
    refine cast (congrArg _ ?_) this
    rw [sub_add_cancel_left, ← Matrix.neg_mul, ← Matrix.mul_neg, neg_sub]

/-- **C23** for affine dynamics: if moreover the next state has a positive definite covariance so has the result. -/
theorem C23_smooth_affine_posDef (env : Env) (K : KFS) {n k : ℕ} {t u : Option ℝ} {A : Matrix (Fin k) (Fin n) ℝ} {b : Fin k → ℝ}
    (hT : ExactOn env K.transform (fun x => K.transition x t u) A b) {Q : Matrix (Fin k) (Fin k) ℝ} (hQ : K.Q = .m Q)
    (hQ' : Q.PosDef) {g next : Gaussian} {m : Fin n → ℝ} {P : Matrix (Fin n) (Fin n) ℝ} (hg : HasMoments env g m P) (hP : P.PosDef)
    {ν : Fin k → ℝ} {S : Matrix (Fin k) (Fin k) ℝ} (hn : HasMoments env next ν S) (hS : S.PosSemidef) :
    ∃ (r : Gaussian) (m' : Fin n → ℝ) (P' : Matrix (Fin n) (Fin n) ℝ), K.smooth env g next t u = .ok r ∧ HasMoments env r m' P' ∧ P'.PosDef := by
  obtain ⟨x, hx, h⟩ := hT g m P hg hP
  have hSp := innov_posDef hP.posSemidef hQ' A
  refine ⟨_, _, _, KFS.smooth_of hg hn h hx hQ (posDef_det_ne hSp), hasMoments_ofMoment _ _ _, ?_⟩
  have hK : ((A * P * Aᵀ + Q)⁻¹ * (P * Aᵀ)ᵀ)ᵀ = gainMat P A Q := by
    rw [transpose_mul, transpose_transpose, posDef_inv_symm hSp, gainMat]
  rw [hK]
  have e : P + gainMat P A Q * (S - (A * P * Aᵀ + Q)) * (gainMat P A Q)ᵀ =
      condCov P A Q + gainMat P A Q * S * (gainMat P A Q)ᵀ := by
    have : gainMat P A Q * (A * P * Aᵀ + Q) = P * Aᵀ := by
      rw [gainMat, Matrix.mul_assoc, posDef_inv_mul hSp, Matrix.mul_one]
    rw [Matrix.mul_sub, Matrix.sub_mul, this, condCov]
    have : (gainMat P A Q)ᵀ = (A * P * Aᵀ + Q)⁻¹ * (P * Aᵀ)ᵀ := by rw [← hK, transpose_transpose]
    rw [this]
    simp only [Matrix.mul_assoc]
    abel
  rw [e]
  exact Matrix.PosDef.add_posSemidef (condCov_posDef hP hQ' A) (congr_posSemidef hS _)

example : ∃ (r : Gaussian) (m' : Fin 2 → ℝ) (P' : Matrix (Fin 2) (Fin 2) ℝ), (demoKFS (taylorTransform calmEnv exactJac)).smooth calmEnv
      (Gaussian.ofMoment (.v ![1, 1]) (.m (diagonal ![2, 3]))) (Gaussian.ofMoment (.v ![0, 1]) (.m (diagonal ![2, 3])))
      (some 0) none = .ok r ∧ HasMoments calmEnv r m' P' ∧ P'.PosDef :=
  C23_smooth_affine_posDef calmEnv (demoKFS (taylorTransform calmEnv exactJac))
    (C20_taylor_exact calmEnv exactJac_correct (.inl (affineFunc_vec _ _))) rfl
    (PosDef.diagonal fun i => by fin_cases i <;> norm_num)
    (hasMoments_ofMoment calmEnv ![1, 1] (diagonal ![2, 3])) posDef_two
    (hasMoments_ofMoment calmEnv ![0, 1] (diagonal ![2, 3])) posDef_two.posSemidef

end Verif
