import Verif.Model.Estimator
import Verif.Lemmas.Scalar
import Verif.Lemmas.Nodes
import Mathlib.Analysis.Calculus.Deriv.Mul
import Mathlib.Analysis.Calculus.Deriv.Add

/-!
# The projections of the estimator: agreement with the Kalman filter (C42), and what becomes of the mean (C41, C65)
-/

namespace Verif

open Matrix Gaussian

variable {env : Env} {n k : ℕ}

/-! ## C42 -/

/-- **C42.** With power 1 the time update is that of the Kalman filter whenever the predicted covariance is positive definite. -/
theorem C42_trans {K : KFS} {e : Estimator} {g : Gaussian} {t u : Option ℝ} {x cr : Arr} {xv : Fin k → ℝ}
    {S0 Q : Matrix (Fin k) (Fin k) ℝ} (he : e.transMap = K.transform) (hp : e.power = 1) (heQ : e.Q = some K.Q)
    (hT : K.transform (fun z => K.transition z t u) g = .ok (x, .m S0, cr)) (hx : IsVec x xv) (hQ : K.Q = .m Q)
    (hS : (S0 + Q).PosDef) : e.projTrans (fun z => K.transition z t u) g = K.predict g t u := by
  rw [KFS.predict_of hT hx hQ]
  simp only [Estimator.projTrans, he, hT, ok_bind, heQ, need, hQ, Arr.iadd_mm, hp, Arr.divS_m _ one_ne_zero, inv_one, one_smul,
    symmetrize_symm (posDef_symm hS), npCholesky_posDef hS, py_pure, hx.ofMoment]

/-- **C42.** When it is not, the filter goes on with it while the estimator raises `LinAlgError`. -/
theorem C42_trans_rejects {K : KFS} {e : Estimator} {g : Gaussian} {t u : Option ℝ} {x cr : Arr} {xv : Fin k → ℝ}
    {S0 Q : Matrix (Fin k) (Fin k) ℝ} (he : e.transMap = K.transform) (hp : e.power = 1) (heQ : e.Q = some K.Q)
    (hT : K.transform (fun z => K.transition z t u) g = .ok (x, .m S0, cr)) (hx : IsVec x xv) (hQ : K.Q = .m Q)
    (hsym : (S0 + Q)ᵀ = S0 + Q) (hS : ¬ (S0 + Q).PosDef) :
    e.projTrans (fun z => K.transition z t u) g = .error .linAlg ∧
      ∃ p, K.predict g t u = .ok p ∧ HasMoments env p xv (S0 + Q) := by
  refine ⟨?_, _, KFS.predict_of hT hx hQ, hasMoments_ofMoment _ _ _⟩
  have hc : npCholesky (.m (S0 + Q)) = .error .linAlg := by
    rcases npCholesky_cases (S0 + Q) with ⟨h, -⟩ | ⟨-, h⟩
    · rw [lowerSym_of_symm hsym] at h; exact absurd h hS
    · exact h
  simp only [Estimator.projTrans, he, hT, ok_bind, heQ, need, hQ, Arr.iadd_mm, hp, Arr.divS_m _ one_ne_zero, inv_one, one_smul,
    symmetrize_symm hsym, hc, error_bind]

/-- **C42.** Whatever the transform, noise and power are, a state returned by the time update passes `validate_covariance`. -/
theorem C42_trans_validated {e : Estimator} {f : Func} {g s : Gaussian} (h : e.projTrans f g = .ok s) :
    validateCovariance env s = .ok () := by
  simp only [Estimator.projTrans] at h
  obtain ⟨⟨x, c, cr⟩, -, h⟩ := py_bind_ok h
  obtain ⟨q, -, h⟩ := py_bind_ok h
  obtain ⟨c1, -, h⟩ := py_bind_ok h
  obtain ⟨c2, -, h⟩ := py_bind_ok h
  obtain ⟨c3, -, h⟩ := py_bind_ok h
  obtain ⟨_, h4, h⟩ := py_bind_ok h
  simp only [py_pure, Except.ok.injEq] at h
  subst h
  simp only [validateCovariance, cov_ofMoment, ok_bind, h4]

/-- **C42.** With power 1 the backward update is the smoothing step towards the marginal of the next state. -/
theorem C42_back {K : KFS} {e : Estimator} {g nx cav : Gaussian} {t u : Option ℝ} {μ : Fin n → ℝ} {P : Matrix (Fin n) (Fin n) ℝ}
    (he : e.transMap = K.transform) (hp : e.power = 1) (heQ : e.Q = some K.Q)
    (hg : HasMoments env g μ P) {ν : Fin k → ℝ} {Sg : Matrix (Fin k) (Fin k) ℝ} (hn : HasMoments env nx ν Sg)
    {x : Arr} {xv : Fin k → ℝ} {S0 Q : Matrix (Fin k) (Fin k) ℝ} {C : Matrix (Fin n) (Fin k) ℝ}
    (hT : K.transform (fun w => K.transition w t u) g = .ok (x, .m S0, .m C)) (hx : IsVec x xv)
    (hQ : K.Q = .m Q) (hS : (S0 + Q).det ≠ 0) (hsym : (S0 + Q)ᵀ = S0 + Q) (hP : Pᵀ = P) (hSg : Sgᵀ = Sg) :
    e.projBack env (fun w => K.transition w t u) g cav (some nx) = K.smooth env g nx t u := by
  rw [KFS.smooth_of hg hn hT hx hQ hS]
  have hs : (P + ((S0 + Q)⁻¹ * Cᵀ)ᵀ * (Sg - (S0 + Q)) * (((S0 + Q)⁻¹ * Cᵀ)ᵀ)ᵀ)ᵀ =
      P + ((S0 + Q)⁻¹ * Cᵀ)ᵀ * (Sg - (S0 + Q)) * (((S0 + Q)⁻¹ * Cᵀ)ᵀ)ᵀ := by
    simp only [transpose_add, Matrix.transpose_mul, transpose_sub, transpose_transpose, hP, hSg, Matrix.mul_assoc] at hsym ⊢
    rw [hsym]
  simp only [Estimator.projBack, he, hT, ok_bind, heQ, need, hQ, Arr.iadd_mm, hp, Arr.divS_m _ one_ne_zero, inv_one, one_smul,
    symmetrize_symm hsym, Arr.T_m, npSolve_mm _ hS, Estimator.target, if_true, hn.meanA, hn.covA, py_pure, hx.sub, hg.meanA,
    hg.covA, Arr.dot_mv, Arr.matmul_mm, Arr.add_vv, Arr.sub_mm, Arr.add_mm, symmetrize_symm hs]

/-- What the measurement update returns: the covariance of the Kalman filter, and as "mean" the `n × n` array with the entries
`μ_j + (gain · innovation)_i`. -/
theorem projMeas_of {e : Estimator} {f : Func} {g : Gaussian} {μ : Fin n → ℝ} {P : Matrix (Fin n) (Fin n) ℝ}
    (hg : HasMoments env g μ P) (hP : P.PosDef) {z y : Arr} {zv yv : Fin k → ℝ} {S0 R : Matrix (Fin k) (Fin k) ℝ}
    {C : Matrix (Fin n) (Fin k) ℝ} (hp : e.power ≠ 0)
    (hT : e.measMap f g = .ok (z, .m S0, .m C)) (hz : IsVec z zv) (hy : IsVec y yv) (hR : e.R = some (.m R))
    (hS : (S0 + e.power⁻¹ • R).PosDef) :
    e.projMeas env f g y = .ok (Gaussian.ofMoment
      (.m (of fun i j => μ j + ((((S0 + e.power⁻¹ • R)⁻¹ * Cᵀ)ᵀ) *ᵥ (yv - zv)) i))
      (.m (P - ((S0 + e.power⁻¹ • R)⁻¹ * Cᵀ)ᵀ * Cᵀ))) := by
  have hv : validateCovariance env g = .ok () := by
    simp only [validateCovariance, hg.2, ok_bind, npCholesky_posDef hP]
  have hsym := posDef_symm hS
  have hs : (P - ((S0 + e.power⁻¹ • R)⁻¹ * Cᵀ)ᵀ * Cᵀ)ᵀ = P - ((S0 + e.power⁻¹ • R)⁻¹ * Cᵀ)ᵀ * Cᵀ := by
    rw [transpose_sub, posDef_symm hP]
    simp only [Matrix.transpose_mul, transpose_transpose, transpose_nonsing_inv, hsym, Matrix.mul_assoc]
  have hcol : ((((S0 + e.power⁻¹ • R)⁻¹ * Cᵀ)ᵀ) * (of fun i _ => (yv - zv) i : Matrix (Fin k) (Fin 1) ℝ)) =
      of fun i _ => ((((S0 + e.power⁻¹ • R)⁻¹ * Cᵀ)ᵀ) *ᵥ (yv - zv)) i := by
    generalize ((S0 + e.power⁻¹ • R)⁻¹ * Cᵀ)ᵀ = G
    ext i j; simp [Matrix.mul_apply, mulVec, dotProduct]
  simp only [Estimator.projMeas, hv, hT, ok_bind, hR, need, Arr.divS_m _ hp, Arr.iadd_mm, symmetrize_symm hsym, npCholesky_posDef hS,
    Arr.T_m, npSolve_mm _ hS.det_pos.ne', hy.atleast1d, hz.sub, hg.meanA, hg.covA, Arr.reshapeCol_v, Arr.matmul_mm, hcol,
    Arr.sub_mm, symmetrize_symm hs, py_pure]
  rw [show ∀ M : Matrix (Fin n) (Fin 1) ℝ, (Arr.v μ).add (.m M) = .ok (.m (of fun i j => μ j + M i 0)) from
    fun M => Arr.zip_v_col _ μ M, ok_bind]
  rfl

/-- **C42.** For scalar states and power 1 the measurement update has the mean and variance of the Kalman filter's correction (the mean
as a `1 × 1` array). -/
theorem C42_meas {K : KFS} {e : Estimator} {t u : Option ℝ} {m p z s c r y : ℝ} {za ya : Arr} (he : e.measMap = K.measTransform)
    (hp : e.power = 1) (heR : e.R = some K.R) (hpos : 0 < p)
    (hT : K.measTransform (fun w => K.measurement w t u) (sG m p) = .ok (za, .m (m1 s), .m (m1 c))) (hz : IsVec za (v1 z))
    (hy : IsVec ya (v1 y)) (hR : K.R = .m (m1 r)) (hS : 0 < s + r) :
    ∃ m' c', e.projMeas env (fun w => K.measurement w t u) (sG m p) ya = .ok (Gaussian.ofMoment (.m (m1 m')) (.m (m1 c'))) ∧
      K.correct env (sG m p) ya t u = .ok (sG m' c') := by
  refine ⟨_, _, ?_, KFS.correct_scalar hT hz hy hR hS.ne'⟩
  rw [projMeas_of (sG_moments env m p) (m1_posDef.2 hpos) (by rw [hp]; exact one_ne_zero) (he ▸ hT) hz hy (heR.trans (by rw [hR]))
    (by rw [hp]; simpa [m1_posDef] using hS)]
  simp only [hp, inv_one, one_smul, m1_add, m1_inv, m1_transpose, m1_mul, v1_sub, m1_mulVec, m1_sub, v1_apply, div_eq_inv_mul]
  rfl

/-- **C42.** Power `p` divides the measurement noise by `p`: the update equals the one with power 1 and noise `R / p`. -/
theorem C42_meas_power {e : Estimator} {f : Func} {g : Gaussian} {y R : Arr} (hp : e.power ≠ 0) (hR : e.R = some R) :
    e.projMeas env f g y = ({ e with R := some (R.smul e.power⁻¹), power := 1 } : Estimator).projMeas env f g y := by
  have h1 : ∀ a : Arr, a.divS 1 = .ok a := fun a => by
    rw [Arr.divS_of_ne _ one_ne_zero]
    cases a <;> simp
  simp only [Estimator.projMeas, hR, need, ok_bind, Arr.divS_of_ne R hp, h1]

/-- **C42.** Power `p` divides the predicted covariance by `p`. -/
theorem C42_trans_power {e : Estimator} {f : Func} {g : Gaussian} {x cr : Arr} {S0 Q : Matrix (Fin k) (Fin k) ℝ}
    (hp : 0 < e.power) (hT : e.transMap f g = .ok (x, .m S0, cr)) (hQ : e.Q = some (.m Q)) (hS : (S0 + Q).PosDef) :
    e.projTrans f g = .ok (Gaussian.ofMoment x (.m (e.power⁻¹ • (S0 + Q)))) := by
  have hS' : (e.power⁻¹ • (S0 + Q)).PosDef := hS.smul (inv_pos.2 hp)
  simp only [Estimator.projTrans, hT, ok_bind, hQ, need, Arr.iadd_mm, Arr.divS_m _ hp.ne', symmetrize_symm (posDef_symm hS'),
    npCholesky_posDef hS', py_pure]

/-- **C42.** With power `p ≠ 1` the backward update aims at the product of the prediction, whose noise is divided by `p`, and the `p`-th
power of the cavity of the next state; the marginal of the next state is ignored. -/
theorem C42_back_power {e : Estimator} {f : Func} {g cav q cavp : Gaussian} {nx : Option Gaussian} {μ : Fin n → ℝ}
    {P : Matrix (Fin n) (Fin n) ℝ} (hp : e.power ≠ 0) (hp1 : e.power ≠ 1) (hg : HasMoments env g μ P)
    {x : Arr} {xv : Fin k → ℝ} {S0 Q : Matrix (Fin k) (Fin k) ℝ} {C : Matrix (Fin n) (Fin k) ℝ}
    (hT : e.transMap f g = .ok (x, .m S0, .m C)) (hx : IsVec x xv) (hQ : e.Q = some (.m Q))
    (hS : (S0 + e.power⁻¹ • Q).PosDef) (hP : Pᵀ = P)
    (hc : cav.pow env e.power = .ok cavp)
    (hq : (Gaussian.ofMoment x (.m (S0 + e.power⁻¹ • Q))).mul env cavp = .ok q)
    {ν : Fin k → ℝ} {Sg : Matrix (Fin k) (Fin k) ℝ} (hn : HasMoments env q ν Sg) (hSg : Sgᵀ = Sg) :
    e.projBack env f g cav nx = .ok (Gaussian.ofMoment (.v (μ + ((S0 + e.power⁻¹ • Q)⁻¹ * Cᵀ)ᵀ *ᵥ (ν - xv)))
      (.m (P + ((S0 + e.power⁻¹ • Q)⁻¹ * Cᵀ)ᵀ * (Sg - (S0 + e.power⁻¹ • Q)) * ((S0 + e.power⁻¹ • Q)⁻¹ * Cᵀ)))) := by
  have hsym := posDef_symm hS
  have hs : (P + ((S0 + e.power⁻¹ • Q)⁻¹ * Cᵀ)ᵀ * (Sg - (S0 + e.power⁻¹ • Q)) * (((S0 + e.power⁻¹ • Q)⁻¹ * Cᵀ)ᵀ)ᵀ)ᵀ =
      P + ((S0 + e.power⁻¹ • Q)⁻¹ * Cᵀ)ᵀ * (Sg - (S0 + e.power⁻¹ • Q)) * (((S0 + e.power⁻¹ • Q)⁻¹ * Cᵀ)ᵀ)ᵀ := by
    generalize S0 + e.power⁻¹ • Q = S at hsym
    simp only [transpose_add, Matrix.transpose_mul, transpose_sub, transpose_transpose, hP, hSg, Matrix.mul_assoc, hsym]
  simp only [Estimator.projBack, hT, ok_bind, hQ, need, Arr.iadd_mm, Arr.divS_m _ hp,
    symmetrize_symm hsym, Arr.T_m, npSolve_mm _ hS.det_pos.ne', Estimator.target, if_neg hp1, hc, hq, hn.meanA, hn.covA, py_pure,
    hx.sub, hg.meanA, hg.covA, Arr.dot_mv, Arr.matmul_mm, Arr.add_vv, Arr.sub_mm, Arr.add_mm, symmetrize_symm hs]
  rw [transpose_transpose]

/-! A scalar random walk with the Taylor transform. -/

noncomputable def walkKFS : KFS := ⟨taylorTransform calmEnv exactJac, taylorTransform calmEnv exactJac, affineSys (m1 2) (v1 3),
  affineSys (m1 1) (v1 0), .m (m1 1), .m (m1 4), sG 0 1, 1⟩

noncomputable def walkEst (p : ℝ) : Estimator :=
  ⟨taylorTransform calmEnv exactJac, taylorTransform calmEnv exactJac, some (.m (m1 1)), some (.m (m1 4)), p, 1⟩

theorem walk_taylor (a b m p : ℝ) : taylorTransform calmEnv exactJac (affineFunc (m1 a) (v1 b)) (sG m p) =
    .ok (.s (a * m + b), .m (m1 (a * p * a)), .m (m1 (p * a))) := by
  have hF : HasDerivAt (fun x : ℝ => a * x + b) a m := by simpa using ((hasDerivAt_id m).const_mul a).add_const b
  refine taylor_scalar exactJac_correct (F := fun x => a * x + b) (fun x => ?_) hF
  refine (affineFunc_vec (m1 a) (v1 b) x).trans ?_
  dsimp only
  rw [v1_ext x, m1_mulVec, v1_add]
  rfl

example : (walkEst 1).projTrans (fun z => walkKFS.transition z none none) (sG 5 2) = walkKFS.predict (sG 5 2) none none :=
  C42_trans rfl rfl rfl (walk_taylor 2 3 5 2) (isVec_s _) rfl (by rw [m1_add]; exact m1_posDef.2 (by norm_num))

-- a predicted covariance of -3: the noise covariance is not validated anywhere
example : ({ walkEst 1 with Q := some (.m (m1 (-11))) } : Estimator).projTrans
      (fun z => ({ walkKFS with Q := .m (m1 (-11)) } : KFS).transition z none none) (sG 5 2) = .error .linAlg ∧
    ∃ p, ({ walkKFS with Q := .m (m1 (-11)) } : KFS).predict (sG 5 2) none none = .ok p ∧
      HasMoments calmEnv p (v1 (2 * 5 + 3)) (m1 (2 * 2 * 2) + m1 (-11)) :=
  C42_trans_rejects rfl rfl rfl (walk_taylor 2 3 5 2) (isVec_s _) rfl rfl
    (by rw [m1_add, m1_posDef]; norm_num)

example : (walkEst 1).projBack calmEnv (fun z => walkKFS.transition z none none) (sG 5 2) (sG 0 1) (some (sG 7 3)) =
    walkKFS.smooth calmEnv (sG 5 2) (sG 7 3) none none :=
  C42_back rfl rfl rfl (sG_moments _ _ _) (sG_moments _ _ _) (walk_taylor 2 3 5 2) (isVec_s _) rfl (by norm_num) rfl rfl rfl

example : ∃ m' c', (walkEst 1).projMeas calmEnv (fun w => walkKFS.measurement w none none) (sG 5 2) (.s 6) =
      .ok (Gaussian.ofMoment (.m (m1 m')) (.m (m1 c'))) ∧ walkKFS.correct calmEnv (sG 5 2) (.s 6) none none = .ok (sG m' c') :=
  C42_meas rfl rfl rfl two_pos (walk_taylor 1 0 5 2) (isVec_s _) (isVec_s _) rfl (by norm_num)

example : (walkEst (1 / 2)).projTrans (affineFunc (m1 2) (v1 3)) (sG 5 2) =
    .ok (Gaussian.ofMoment (.s (2 * 5 + 3)) (.m ((1 / 2 : ℝ)⁻¹ • (m1 (2 * 2 * 2) + m1 1)))) :=
  C42_trans_power (by norm_num [walkEst]) (walk_taylor 2 3 5 2) rfl (by rw [m1_add]; exact m1_posDef.2 (by norm_num))

end Verif
