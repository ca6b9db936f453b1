import Verif.Props.Estimator
import Verif.Lemmas.Build
import Verif.Props.Systems
import Verif.Props.Kalman

/-!
# The shape of the mean after a measurement update (C41, C65)
-/

namespace Verif

open Matrix Gaussian Node

variable {env : Env} {n k : ℕ}

/-- The transform returns a vector of length `k`, a `k × k` and an `n × k` matrix, if it returns. -/
def ShapedOn (env : Env) (n k : ℕ) (T : Transform) (f : Func) : Prop :=
  ∀ (g : Gaussian) (μ : Fin n → ℝ) (P : Matrix (Fin n) (Fin n) ℝ), HasMoments env g μ P → ∀ r, T f g = .ok r →
    ∃ (z : Arr) (zv : Fin k → ℝ) (S : Matrix (Fin k) (Fin k) ℝ) (C : Matrix (Fin n) (Fin k) ℝ), IsVec z zv ∧ r = (z, .m S, .m C)

theorem projMeas_shape {e : Estimator} {f : Func} {g s : Gaussian} {μ : Fin n → ℝ} {P : Matrix (Fin n) (Fin n) ℝ}
    (hg : HasMoments env g μ P) {y : Arr} {yv : Fin k → ℝ} (hT : ShapedOn env n k e.measMap f) (hy : IsVec y yv)
    {R : Matrix (Fin k) (Fin k) ℝ} (hR : e.R = some (.m R)) (h : e.projMeas env f g y = .ok s) :
    ∃ (w : Fin n → ℝ) (C : Matrix (Fin n) (Fin n) ℝ), s = Gaussian.ofMoment (.m (of fun i j => μ j + w i)) (.m C) ∧ Cᵀ = C := by
  simp only [Estimator.projMeas] at h
  obtain ⟨_, -, h⟩ := py_bind_ok h
  obtain ⟨r, hr, h⟩ := py_bind_ok h
  obtain ⟨z, zv, S0, C, hz, rfl⟩ := hT g μ P hg r hr
  rw [hR] at h
  simp only [need, ok_bind] at h
  obtain ⟨a, ha, h⟩ := py_bind_ok h
  have hp : e.power ≠ 0 := by
    intro h0; rw [h0] at ha; simp [Arr.divS] at ha
  rw [Arr.divS_m _ hp, Except.ok.injEq] at ha
  subst ha
  rw [Arr.iadd_mm, ok_bind, symmetrize_m, ok_bind] at h
  generalize hS : (2 : ℝ)⁻¹ • (S0 + e.power⁻¹ • R + (S0 + e.power⁻¹ • R)ᵀ) = S at h
  obtain ⟨_, hc, h⟩ := py_bind_ok h
  have hsym : Sᵀ = S := by rw [← hS]; exact half_add_transpose_symm _
  have hpd : S.PosDef := by rw [npCholesky_m, lowerSym_of_symm hsym] at hc; exact hc
  rw [Arr.T_m, npSolve_mm _ hpd.det_pos.ne', ok_bind, hg.meanA, hg.covA] at h
  simp only [ok_bind, hy.atleast1d, hz.sub, Arr.T_m, Arr.reshapeCol_v, Arr.matmul_mm, Arr.sub_mm, symmetrize_m, py_pure] at h
  rw [show ∀ M : Matrix (Fin n) (Fin 1) ℝ, (Arr.v μ).add (.m M) = .ok (.m (of fun i j => μ j + M i 0)) from
    fun M => Arr.zip_v_col _ μ M, ok_bind, Except.ok.injEq] at h
  exact ⟨_, _, h.symm, half_add_transpose_symm _⟩

theorem precision_matrix_mean {M C : Matrix (Fin n) (Fin n) ℝ} {a : Arr}
    (h : (Gaussian.ofMoment (.m M) (.m C)).precisionA env = .ok a) :
    ∃ P : Matrix (Fin n) (Fin n) ℝ, a = .m P ∧ (Gaussian.ofMoment (.m M) (.m C)).shiftA env = .ok (.m (P * M)) := by
  simp only [precisionA, shiftA, precision_ofMoment, shift_ofMoment, Arr.atleast1d_m, momentToNatural, need_some, ok_bind,
    Arr.shape0_m] at h ⊢
  rcases invert_cases env C with ⟨P, hP⟩ | ⟨e, he, hP⟩
  · rw [hP] at h ⊢
    simp only [ok_bind, symmetrize_m, Arr.matmul_mm, py_pure, Except.map, need_some, Except.ok.injEq] at h ⊢
    exact ⟨_, h.symm, rfl⟩
  · rw [hP] at h
    simp [Except.map, error_bind] at h

/-- A Gaussian whose shift is a square matrix reads a square matrix as mean, unless its precision counts as zero. -/
theorem mean_matrix_shift {P H : Matrix (Fin n) (Fin n) ℝ} (ht : TRACE_EPS ≤ P.trace) {c : Option Arr}
    (hc : (ofNatural (.m P) (.m H)).cov env = .ok c) :
    ∃ C : Matrix (Fin n) (Fin n) ℝ, c = some (.m C) ∧ (ofNatural (.m P) (.m H)).mean env = .ok (some (.m (C * H))) := by
  rw [cov_ofNatural] at hc
  rw [mean_ofNatural]
  simp only [naturalToMoment, need_some, ok_bind, Arr.shape0_m, Arr.trace_m, if_neg (not_lt.2 ht), Arr.atleast1d_m] at hc ⊢
  rcases invert_cases env P with ⟨C, hC⟩ | ⟨e, he, hC⟩
  · rw [hC] at hc ⊢
    simp only [ok_bind, symmetrize_m, Arr.dot_mm, py_pure, Except.map, Except.ok.injEq] at hc ⊢
    exact ⟨_, hc.symm, rfl⟩
  · rw [hC] at hc
    simp [Except.map, error_bind] at hc

/-- **C41.** A measurement update of a node whose marginal and factor are proper Gaussians of dimension `n` either leaves everything as
it was or leaves a marginal whose shift is an `n × n` array; its mean then is an `n × n` array too, unless the precision counts as
zero. -/
theorem C41_marginal {e : Estimator} {r : Ref} {h h' : Heap} {P Pf : Matrix (Fin n) (Fin n) ℝ} {s sf : Fin n → ℝ}
    (hM : HasNatural env (h.get r).marginal P s) (hF : HasNatural env (h.get r).measFactor Pf sf)
    {y : Arr} {yv : Fin k → ℝ} (hmeas : (h.get r).meas = some y) (hy : IsVec y yv) {R : Matrix (Fin k) (Fin k) ℝ}
    (hR : e.R = some (.m R)) (hT : ShapedOn env n k e.measMap (h.get r).measFunc)
    (hrun : measUpdateBody env r (e.projMeas env) h = (.ok (), h')) :
    h' = h ∨ ∃ P' H : Matrix (Fin n) (Fin n) ℝ, (h'.get r).marginal = ofNatural (.m P') (.m H) ∧
      (TRACE_EPS ≤ P'.trace → ∃ M : Matrix (Fin n) (Fin n) ℝ, (h'.get r).marginal.mean env = .ok (some (.m M))) := by
  rw [measUpdateBody_eq, truediv_natural hM hF] at hrun
  dsimp only at hrun
  cases hv : measValue env (h.get r) (e.projMeas env) (ofNatural (.m (P - Pf)) (.v (s - sf))) with
  | error e' =>
    rw [hv] at hrun
    left
    cases e' <;> simp at hrun
    exact hrun.symm
  | ok FM =>
    obtain ⟨F, M⟩ := FM
    rw [hv] at hrun
    simp only [Prod.mk.injEq, true_and] at hrun
    right
    subst hrun
    rw [Heap.update_get_same]
    simp only [setMeas]
    simp only [measValue, hmeas, attr, ok_bind] at hv
    obtain ⟨st, hst, hv⟩ := py_bind_ok hv
    obtain ⟨_, -, hv⟩ := py_bind_ok hv
    -- the cavity was readable, otherwise `projMeas` raises
    have hcav : ∃ (μ : Fin n → ℝ) (C : Matrix (Fin n) (Fin n) ℝ), Cᵀ = C ∧
        HasMoments env (ofNatural (.m (P - Pf)) (.v (s - sf))) μ C := by
      rcases naturalToMoment_cases env (P - Pf) (s - sf) with ⟨μ, C, hC, hm⟩ | ⟨e', -, hm⟩
      · exact ⟨μ, C, hC, by rw [mean_ofNatural, Arr.atleast1d_v, hm]; rfl, by rw [cov_ofNatural, Arr.atleast1d_v, hm]; rfl⟩
      · exfalso
        simp only [Estimator.projMeas] at hst
        obtain ⟨_, hbad, -⟩ := py_bind_ok hst
        simp only [validateCovariance, cov_ofNatural, Arr.atleast1d_v, hm] at hbad
        simp [Except.map, error_bind] at hbad
    obtain ⟨μ, C, hC, hgm⟩ := hcav
    obtain ⟨w, C', rfl, hC'⟩ := projMeas_shape hgm hT hy hR hst
    simp only [powerUpdate] at hv
    obtain ⟨d, -, hv⟩ := py_bind_ok hv
    obtain ⟨p, -, hv⟩ := py_bind_ok hv
    obtain ⟨q, hq, hv⟩ := py_bind_ok hv
    simp only [truediv] at hq
    obtain ⟨pa, hpa, hq⟩ := py_bind_ok hq
    obtain ⟨P1, rfl, hsh⟩ := precision_matrix_mean hpa
    rw [hM.precisionA, hM.shiftA, hsh] at hq
    simp only [ok_bind, Arr.sub_mm, Arr.sub_mv, py_pure, Except.ok.injEq] at hq
    subst hq
    obtain ⟨nf, hnf, hv⟩ := py_bind_ok hv
    obtain ⟨_, -, hv⟩ := py_bind_ok hv
    obtain ⟨dp, -, hv⟩ := py_bind_ok hv
    obtain ⟨qp, hqp, hv⟩ := py_bind_ok hv
    simp only [Gaussian.pow, precisionA_ofNatural, shiftA_ofNatural, ok_bind, Arr.smul_m, Arr.atleast1d_m, py_pure, Except.ok.injEq] at hqp
    subst hqp
    obtain ⟨nm, hnm, hv⟩ := py_bind_ok hv
    simp only [Gaussian.mul, hM.precisionA, hM.shiftA, precisionA_ofNatural, shiftA_ofNatural, ok_bind, Arr.add_mm, symmetrize_m,
      Arr.atleast1d_m, Arr.add_vm, py_pure, Except.ok.injEq] at hnm
    subst hnm
    obtain ⟨_, hval, hv⟩ := py_bind_ok hv
    simp only [py_pure, Except.ok.injEq, Prod.mk.injEq] at hv
    obtain ⟨-, rfl⟩ := hv
    refine ⟨_, _, rfl, fun ht => ?_⟩
    simp only [validateCovariance] at hval
    obtain ⟨c, hc, -⟩ := py_bind_ok hval
    obtain ⟨C2, -, hm⟩ := mean_matrix_shift ht hc
    exact ⟨_, hm⟩

/-! ## What such a mean does to the next time update -/

/-- The transform raises `ValueError` for every Gaussian of dimension `n` whose mean is an `n × n` array. -/
def RejectsMatrixMean (env : Env) (n : ℕ) (T : Transform) (f : Func) : Prop :=
  ∀ (g : Gaussian) (M C : Matrix (Fin n) (Fin n) ℝ), g.mean env = .ok (some (.m M)) → g.cov env = .ok (some (.m C)) → C.PosDef →
    T f g = .error .value

/-- **C41.** The unscented transform rejects it in every dimension but one: the weights do not fit the `3n` sigma points. -/
theorem C41_unscented {u : UT} (hu : 0 ≤ (u.n : ℝ) + u.lam) (hn : u.n ≠ 1) {f : Func}
    (hf : ∀ (N : ℕ) (X : Matrix (Fin N) (Fin u.n) ℝ), ∃ Y : Matrix (Fin N) (Fin k) ℝ, f (.m X) = .ok (.m Y)) :
    RejectsMatrixMean env u.n (u.transform env) f := by
  intro g M C hm hc hC
  simp only [UT.transform, hm, hc, ok_bind, UT.sigmaPoints, if_neg (not_lt.2 hu), need, symmetrize_symm (posDef_symm hC),
    spCholeskyU_posDef hC, tryBare_ok, Arr.smul_m, Arr.add_mm, Arr.sub_mm, vstack2_mm]
  obtain ⟨Y, hY⟩ := hf _ (of (Fin.append (of (Fin.append M (M + √(u.n + u.lam) • cholU hC))) (M - √(u.n + u.lam) • cholU hC)))
  rw [hY, ok_bind]
  have : (Arr.v u.wm).matmul (.m Y) = .error .value := dif_neg (by omega)
  rw [this, error_bind]

/-- **C41.** The Monte Carlo transform rejects it in every dimension: numpy wants a vector as mean. -/
theorem C41_monte_carlo (draw : Draw) (N : ℕ) (f : Func) : RejectsMatrixMean env n (mcTransform env draw N) f := by
  intro g M C hm hc hC
  simp only [mcTransform, Gaussian.sample, hm, hc, ok_bind, error_bind]

/-- **C65.** The Taylor transform rejects it in dimension one: the Jacobian of shape `(1,1,1,1)`, which is what `autograd` returns for a
function between arrays of shape `(1,1)`, is squeezed to a scalar, and `@` does not accept scalars. -/
theorem C65_taylor {jac : Jac} {f : Func} (hf : ∀ x, ∃ a, f (.m (m1 x)) = .ok (.m (m1 a)))
    (hj : ∀ x, ∃ t : Tensor, jac f (.m (m1 x)) = .ok t ∧ t.shape = [1, 1, 1, 1]) :
    RejectsMatrixMean env 1 (taylorTransform env jac) f := by
  intro g M C hm hc hC
  obtain ⟨t, ht, hs⟩ := hj (M 0 0)
  obtain ⟨a, ha⟩ := hf (M 0 0)
  rw [← m1_ext M] at ht ha
  have hT : t.squeeze.toArr = .ok (.s (t.squeeze.get [])) := by
    have : t.squeeze.shape = [] := by simp [Tensor.squeeze, hs]
    unfold Tensor.toArr
    split <;> simp_all
  simp only [taylorTransform, meanA, covA, hm, hc, ok_bind, need, ht, hs, List.length_cons, List.length_nil, ha]
  rw [if_pos (by norm_num), hT]
  rfl

/-- **C41, C65.** If the previous node has such a marginal and no backward factor yet, a transform that rejects it makes `fwd_update`
raise `ValueError`, which is not caught. -/
theorem fwdUpdate_aborts {e : Estimator} {r p : Ref} {h : Heap} {P H : Matrix (Fin n) (Fin n) ℝ} {α : ℝ}
    (hprev : (h.get r).prev = some p) (hα : (h.get r).power = some α) (hα0 : α ≠ 0)
    (hM : (h.get p).marginal = ofNatural (.m P) (.m H)) (hB : (h.get p).backFactor = asFactor n) (hP : P.PosDef)
    (ht : TRACE_EPS ≤ P.trace) (hi : env.illPos P = false) (hrej : RejectsMatrixMean env n e.transMap (h.get r).transFunc) :
    fwdUpdateBody env r e.projTrans h = (.error .value, h) := by
  have hcav : fwdCavity env h (h.get r) = .ok (ofNatural (.m P) (.m H)) := by
    simp only [fwdCavity, backCavityFromPrev, hprev, attr, hα, ok_bind, pyDiv, if_neg hα0, hM, hB, asFactor, Arr.zeros,
      pow_natural (hasNatural_ofNatural env (0 : Matrix (Fin n) (Fin n) ℝ) fun _ => 0)]
    simp only [truediv, precisionA_ofNatural, shiftA_ofNatural, ok_bind, Arr.atleast1d_m, Arr.atleast1d_v, Arr.sub_mm, Arr.sub_mv, py_pure,
      smul_zero, sub_zero]
    simp only [Pi.smul_apply, smul_zero, sub_zero]
    rfl
  rw [fwdUpdateBody_eq, hcav]
  have hcov : (ofNatural (.m P) (.m H)).cov env = .ok (some (.m P⁻¹)) := by
    rw [cov_ofNatural]
    simp only [naturalToMoment, need_some, ok_bind, Arr.shape0_m, Arr.trace_m, if_neg (not_lt.2 ht), Arr.atleast1d_m,
      spSolvePos_eye hP hi, tryBare_ok, symmetrize_symm (posDef_symm hP.inv), Arr.dot_mm, py_pure]
    rfl
  obtain ⟨C, hC, hmean⟩ := mean_matrix_shift ht hcov
  simp only [Option.some.injEq, Arr.m_inj] at hC
  subst hC
  have : fwdGuarded env (h.get r) e.projTrans (ofNatural (.m P) (.m H)) = .error .value := by
    simp only [fwdGuarded, Estimator.projTrans, hrej _ _ _ hmean hcov hP.inv, error_bind]
  simp only [this]

/-! ## A whole pass -/

/-- The transform replaces the function by some linear one plus independent noise (both may depend on the state) and returns the
moments of that. -/
def LinearisesOn (env : Env) (T : Transform) (f : Func) (n k : ℕ) : Prop :=
  ∀ (g : Gaussian) (μ : Fin n → ℝ) (P : Matrix (Fin n) (Fin n) ℝ), HasMoments env g μ P → P.PosDef →
    ∃ (z : Arr) (zv : Fin k → ℝ) (H : Matrix (Fin k) (Fin n) ℝ) (E : Matrix (Fin k) (Fin k) ℝ), IsVec z zv ∧ E.PosSemidef ∧
      T f g = .ok (z, .m (H * P * Hᵀ + E), .m (P * Hᵀ))

theorem ExactOn.linearises {T : Transform} {f : Func} {A : Matrix (Fin k) (Fin n) ℝ} {b : Fin k → ℝ} (h : ExactOn env T f A b) :
    LinearisesOn env T f n k := fun g μ P hg hP => by
  obtain ⟨z, hz, hT⟩ := h g μ P hg hP
  exact ⟨z, _, A, 0, hz, Matrix.PosSemidef.zero, by rw [add_zero]; exact hT⟩

theorem taylor_linearises {jac : Jac} (hjac : CorrectJac jac) {f : Func} {F : (Fin n → ℝ) → Fin k → ℝ} (hf : VecFunc f F)
    (hF : Differentiable ℝ F) : LinearisesOn env (taylorTransform env jac) f n k := fun g μ P hg _ =>
  ⟨_, F μ, _, 0, .inr rfl, Matrix.PosSemidef.zero, by rw [add_zero]; exact C17_taylor_linearises hjac hg hf (hF μ).hasFDerivAt⟩

/-- A node as `build_nodes` makes it, with power `α` and damping `γ`. -/
def FreshNode (n : ℕ) (α γ : ℝ) (nd : Node) : Prop :=
  nd.marginal = asMarginal n ∧ nd.fwdFactor = asFactor n ∧ nd.measFactor = asFactor n ∧ nd.backFactor = asFactor n ∧
  nd.power = some α ∧ nd.damping = some γ

theorem asFactor_natural (env : Env) (n : ℕ) : HasNatural env (asFactor n) (0 : Matrix (Fin n) (Fin n) ℝ) 0 :=
  hasNatural_ofNatural env _ _

theorem asMarginal_natural (hcalm : ∀ A : Matrix (Fin n) (Fin n) ℝ, env.illPos A = false) :
    HasNatural env (asMarginal n) (TRACE_EPS • (1 : Matrix (Fin n) (Fin n) ℝ)) 0 := by
  have hpd : (LARGE_NUM • (1 : Matrix (Fin n) (Fin n) ℝ)).PosDef := Matrix.PosDef.one.smul LARGE_NUM_pos
  have hinv : (LARGE_NUM • (1 : Matrix (Fin n) (Fin n) ℝ))⁻¹ = TRACE_EPS • (1 : Matrix (Fin n) (Fin n) ℝ) := by
    refine inv_eq_right_inv ?_
    rw [smul_mul_smul_comm, one_mul]
    norm_num [LARGE_NUM, TRACE_EPS]
  have h := natural_of_moment (env := env) (0 : Fin n → ℝ) hpd (hcalm _)
  rw [hinv, mulVec_zero] at h
  exact h

theorem natural_of_isVec (hcalm : ∀ A : Matrix (Fin n) (Fin n) ℝ, env.illPos A = false) {a : Arr} {x : Fin n → ℝ} (ha : IsVec a x)
    {S : Matrix (Fin n) (Fin n) ℝ} (hS : S.PosDef) : HasNatural env (ofMoment a (.m S)) S⁻¹ (S⁻¹ *ᵥ x) := by
  rw [ha.ofMoment]
  exact natural_of_moment x hS (hcalm _)

theorem validate_natural (hcalm : ∀ A : Matrix (Fin n) (Fin n) ℝ, env.illPos A = false) {P : Matrix (Fin n) (Fin n) ℝ} (s : Arr)
    (hs : (∃ h : Fin n → ℝ, s = .v h) ∨ ∃ H : Matrix (Fin n) (Fin n) ℝ, s = .m H) (hP : P.PosDef) (ht : TRACE_EPS ≤ P.trace) :
    validateCovariance env (ofNatural (.m P) s) = .ok () := by
  have : (ofNatural (.m P) s).cov env = .ok (some (.m P⁻¹)) := by
    rw [cov_ofNatural]
    rcases hs with ⟨h, rfl⟩ | ⟨H, rfl⟩ <;>
    simp only [naturalToMoment, need_some, ok_bind, Arr.shape0_m, Arr.trace_m, if_neg (not_lt.2 ht), Arr.atleast1d_m, Arr.atleast1d_v,
      spSolvePos_eye hP (hcalm _), tryBare_ok, symmetrize_symm (posDef_symm hP.inv), Arr.dot_mm, Arr.dot_mv, py_pure] <;> rfl
  simp only [validateCovariance, this, ok_bind, npCholesky_posDef hP.inv]

/-- The first time update of a node, given its cavity. -/
theorem fwd_of_cavity {e : Estimator} {r : Ref} {h : Heap} {γ : ℝ} (hcalm : ∀ A : Matrix (Fin n) (Fin n) ℝ, env.illPos A = false) (hn : n ≠ 0)
    (hp : 0 < e.power) (hγ : 0 ≤ γ) (hF : FreshNode n e.power γ (h.get r)) {g : Gaussian}
    (hcav : fwdCavity env h (h.get r) = .ok g)
    {x cr : Arr} {xv : Fin n → ℝ} {S0 Q : Matrix (Fin n) (Fin n) ℝ} (hT : e.transMap (h.get r).transFunc g = .ok (x, .m S0, cr))
    (hx : IsVec x xv) (hQ : e.Q = some (.m Q)) (hS : (S0 + Q).PosDef) :
    ∃ F, fwdUpdateBody env r e.projTrans h = (.ok (), h.update r (setFwd F
      (ofNatural (.m (TRACE_EPS • 1 + γ • (S0 + Q)⁻¹)) (.v (γ • ((S0 + Q)⁻¹ *ᵥ xv)))))) := by
  obtain ⟨f1, f2, f3, f4, f5, f6⟩ := hF
  have hst := C42_trans_power hp hT hQ hS
  have hSi : (e.power⁻¹ • (S0 + Q))⁻¹ = e.power • (S0 + Q)⁻¹ := by
    refine inv_eq_right_inv ?_
    rw [smul_mul_smul_comm, inv_mul_cancel₀ hp.ne', one_smul, mul_nonsing_inv _ (posDef_isUnit hS)]
  have hnat := natural_of_isVec hcalm hx (hS.smul (inv_pos.2 hp))
  rw [hSi] at hnat
  have hsym := posDef_symm hS.inv
  have hps : (γ • (S0 + Q)⁻¹).PosSemidef := hS.inv.posSemidef.smul hγ
  have hP1 : (TRACE_EPS • (1 : Matrix (Fin n) (Fin n) ℝ) + γ • (S0 + Q)⁻¹).PosDef :=
    (Matrix.PosDef.one.smul TRACE_EPS_pos).add_posSemidef hps
  have htr : TRACE_EPS ≤ (TRACE_EPS • (1 : Matrix (Fin n) (Fin n) ℝ) + γ • (S0 + Q)⁻¹).trace := by
    rw [trace_add, trace_smul, trace_one, Fintype.card_fin]
    have h1 : (1 : ℝ) ≤ n := by exact_mod_cast Nat.one_le_iff_ne_zero.2 hn
    have h2 := hps.trace_nonneg
    have := TRACE_EPS_pos
    simp only [smul_eq_mul]
    nlinarith
  have e1 := mul_natural (hasNatural_ofNatural env ((1 - γ) • (0 : Matrix (Fin n) (Fin n) ℝ)) ((1 - γ) • (0 : Fin n → ℝ)))
    (hasNatural_ofNatural env (γ • e.power • (S0 + Q)⁻¹) (γ • ((e.power • (S0 + Q)⁻¹) *ᵥ xv))) (by simp)
    (by rw [transpose_smul, transpose_smul, hsym])
  have e2 := truediv_natural (hasNatural_ofNatural env ((1 - γ) • (0 : Matrix (Fin n) (Fin n) ℝ) + γ • e.power • (S0 + Q)⁻¹)
    ((1 - γ) • (0 : Fin n → ℝ) + γ • ((e.power • (S0 + Q)⁻¹) *ᵥ xv))) (asFactor_natural env n)
  have hk : (1 / e.power) * (γ * e.power) = γ := by field_simp
  have hg : ∃ F, fwdGuarded env (h.get r) e.projTrans g = .ok (F,
      ofNatural (.m (TRACE_EPS • 1 + γ • (S0 + Q)⁻¹)) (.v (γ • ((S0 + Q)⁻¹ *ᵥ xv)))) := by
    simp only [fwdGuarded, hst, ok_bind, C42_trans_validated hst, f6, f5, attr, f2, pow_natural (asFactor_natural env n), pow_natural hnat,
      e1, pyDiv, if_neg hp.ne', e2, pow_natural (hasNatural_ofNatural env _ _)]
    rw [f1, mul_natural (asMarginal_natural hcalm) (hasNatural_ofNatural env _ _) (by simp) (by simp [hsym])]
    simp only [smul_zero, zero_add, sub_zero, ok_bind, smul_mulVec, smul_smul, hk]
    rw [validate_natural hcalm _ (.inl ⟨_, rfl⟩) hP1 htr]
    exact ⟨_, rfl⟩
  obtain ⟨F, hg⟩ := hg
  refine ⟨F, ?_⟩
  rw [fwdUpdateBody_eq, hcav]
  simp only [hg]

/-- The first time update of a pass. -/
theorem fwd_first {e : Estimator} {r : Ref} {h : Heap} {γ : ℝ} (hcalm : ∀ A : Matrix (Fin n) (Fin n) ℝ, env.illPos A = false) (hn : n ≠ 0)
    (hp : 0 < e.power) (hγ : 0 ≤ γ) (hF : FreshNode n e.power γ (h.get r)) {g : Gaussian} (hprev : (h.get r).prev = none)
    (hprior : (h.get r).prior = some g)
    {x cr : Arr} {xv : Fin n → ℝ} {S0 Q : Matrix (Fin n) (Fin n) ℝ} (hT : e.transMap (h.get r).transFunc g = .ok (x, .m S0, cr))
    (hx : IsVec x xv) (hQ : e.Q = some (.m Q)) (hS : (S0 + Q).PosDef) :
    ∃ F, fwdUpdateBody env r e.projTrans h = (.ok (), h.update r (setFwd F
      (ofNatural (.m (TRACE_EPS • 1 + γ • (S0 + Q)⁻¹)) (.v (γ • ((S0 + Q)⁻¹ *ᵥ xv)))))) :=
  fwd_of_cavity hcalm hn hp hγ hF (by simp only [fwdCavity, backCavityFromPrev, hprev, attr, error_bind, hprior]) hT hx hQ hS

/-- The first measurement update of a pass, for a transform that linearises: it is accepted. -/
theorem meas_first {e : Estimator} {r : Ref} {h : Heap} {γ : ℝ} (hcalm : ∀ A : Matrix (Fin n) (Fin n) ℝ, env.illPos A = false)
    (hp : 0 < e.power) (hγ : 0 ≤ γ) (hpow : (h.get r).power = some e.power) (hdamp : (h.get r).damping = some γ)
    {P : Matrix (Fin n) (Fin n) ℝ} {s : Fin n → ℝ} (hM : (h.get r).marginal = ofNatural (.m P) (.v s)) (hP : P.PosDef)
    (ht : TRACE_EPS ≤ P.trace) (hF : (h.get r).measFactor = asFactor n)
    (hT : LinearisesOn env e.measMap (h.get r).measFunc n k)
    {y : Arr} {yv : Fin k → ℝ} (hmeas : (h.get r).meas = some y) (hy : IsVec y yv) {R : Matrix (Fin k) (Fin k) ℝ}
    (hR : e.R = some (.m R)) (hR' : R.PosDef) :
    ∃ (F : Gaussian) (P' W : Matrix (Fin n) (Fin n) ℝ), P'.PosDef ∧ TRACE_EPS ≤ P'.trace ∧
      measUpdateBody env r (e.projMeas env) h = (.ok (), h.update r (setMeas F (ofNatural (.m P') (.m W)))) := by
  have hcav : (h.get r).marginal.truediv env (h.get r).measFactor = .ok (ofNatural (.m P) (.v s)) := by
    rw [hM, hF, truediv_natural (hasNatural_ofNatural env _ _) (asFactor_natural env n), sub_zero, sub_zero]
  have hg : HasMoments env (ofNatural (.m P) (.v s)) (P⁻¹ *ᵥ s) P⁻¹ := moment_of_natural s hP ht (hcalm _)
  obtain ⟨z, zv, H, E, hz, hE, hTz⟩ := hT _ _ _ hg hP.inv
  -- the measurement noise divided by the power, with the noise of the linearisation
  have hRα : (E + e.power⁻¹ • R).PosDef := (hR'.smul (inv_pos.2 hp)).posSemidef_add hE
  generalize hRe : E + e.power⁻¹ • R = Ra at hRα
  have hS := innov_posDef hP.inv.posSemidef hRα H
  have hproj := projMeas_of (e := e) hg hP.inv hp.ne' hTz hz hy hR (by rw [add_assoc, hRe]; exact hS)
  have hK : ((H * P⁻¹ * Hᵀ + Ra)⁻¹ * (P⁻¹ * Hᵀ)ᵀ)ᵀ = gainMat P⁻¹ H Ra := by
    rw [Matrix.transpose_mul, transpose_transpose, posDef_inv_symm hS, gainMat]
  rw [add_assoc, hRe, hK, show P⁻¹ - gainMat P⁻¹ H Ra * (P⁻¹ * Hᵀ)ᵀ = condCov P⁻¹ H Ra from rfl] at hproj
  have hC := condCov_posDef hP.inv hRα H
  have hCi := condCov_inv hP.inv hRα H
  rw [nonsing_inv_nonsing_inv _ (posDef_isUnit hP)] at hCi
  have hps := congr_posSemidef hRα.inv.posSemidef Hᵀ
  rw [transpose_transpose] at hps
  have hP' : (P + Hᵀ * Ra⁻¹ * H).PosDef := Matrix.PosDef.add_posSemidef hP hps
  have hps2 : ((γ / e.power) • (Hᵀ * Ra⁻¹ * H)).PosSemidef := hps.smul (div_nonneg hγ hp.le)
  have hP2 : (P + (γ / e.power) • (Hᵀ * Ra⁻¹ * H)).PosDef := Matrix.PosDef.add_posSemidef hP hps2
  have ht2 : TRACE_EPS ≤ (P + (γ / e.power) • (Hᵀ * Ra⁻¹ * H)).trace := by
    rw [trace_add]; have := hps2.trace_nonneg; linarith
  obtain ⟨Mn, hproj⟩ : ∃ Mn : Matrix (Fin n) (Fin n) ℝ, e.projMeas env (h.get r).measFunc (ofNatural (.m P) (.v s)) y =
    .ok (ofMoment (.m Mn) (.m (condCov P⁻¹ H Ra))) := ⟨_, hproj⟩
  have hsp : (ofMoment (.m Mn) (.m (condCov P⁻¹ H Ra))).precisionA env = .ok (.m (P + Hᵀ * Ra⁻¹ * H)) ∧
      (ofMoment (.m Mn) (.m (condCov P⁻¹ H Ra))).shiftA env = .ok (.m ((P + Hᵀ * Ra⁻¹ * H) * Mn)) := by
    simp only [precisionA, shiftA, precision_ofMoment, shift_ofMoment, Arr.atleast1d_m, momentToNatural, need_some, ok_bind,
      Arr.shape0_m, spSolvePos_eye hC (hcalm _), tryBare_ok, hCi, symmetrize_symm (posDef_symm hP'), Arr.matmul_mm, py_pure]
    exact ⟨rfl, rfl⟩
  have hMn : HasNatural env (h.get r).marginal P s := by rw [hM]; exact hasNatural_ofNatural env _ _
  have hv : validateCovariance env (ofMoment (.m Mn) (.m (condCov P⁻¹ H Ra))) = .ok () := by
    simp only [validateCovariance, cov_ofMoment, ok_bind, npCholesky_posDef hC]
  have hval : ∃ (F : Gaussian) (W : Matrix (Fin n) (Fin n) ℝ), measValue env (h.get r) (e.projMeas env) (ofNatural (.m P) (.v s)) = .ok
      (F, ofNatural (.m (P + (γ / e.power) • (Hᵀ * Ra⁻¹ * H))) (.m W)) := by
    simp only [measValue, hmeas, attr, ok_bind, hproj, hv, powerUpdate, hpow, hdamp, truediv, hsp.1, hsp.2, hMn.precisionA, hMn.shiftA,
      Arr.sub_mm, Arr.sub_mv, py_pure, hF, Gaussian.pow, precisionA_ofNatural, shiftA_ofNatural, Arr.smul_m, Arr.atleast1d_m, pyDiv,
      if_neg hp.ne', add_sub_cancel_left, Gaussian.mul, (asFactor_natural env n).precisionA,
      (asFactor_natural env n).shiftA, Arr.add_mm, Arr.add_vm, zero_add, Pi.zero_apply, symmetrize_m,
      symmetrize_symm (posDef_symm hP2)]
    rw [validate_natural hcalm _ (.inr ⟨_, rfl⟩) hP2 ht2, ok_bind]
    exact ⟨_, _, rfl⟩
  obtain ⟨F, W, hval⟩ := hval
  refine ⟨F, _, W, hP2, ht2, ?_⟩
  rw [measUpdateBody_eq, hcav]
  simp only [hval]

/-- **C41, C65.** For transforms that linearise, any power and damping, and a transition transform that rejects matrices as means, the first pass over the
freshly built nodes raises `ValueError` in the time update of the second node. -/
theorem pass_aborts {e : Estimator} {h : Heap} {γ : ℝ} {r0 r1 : Ref} (rest : List Ref)
    (hcalm : ∀ A : Matrix (Fin n) (Fin n) ℝ, env.illPos A = false) (hn : n ≠ 0) (hp : 0 < e.power) (hγ : 0 ≤ γ) (hr : r1 ≠ r0)
    (hF : FreshNode n e.power γ (h.get r0)) (hprev : (h.get r0).prev = none) {g : Gaussian} (hprior : (h.get r0).prior = some g)
    {μ0 : Fin n → ℝ} {P0 : Matrix (Fin n) (Fin n) ℝ} (hg : HasMoments env g μ0 P0) (hP0 : P0.PosDef)
    (hA : LinearisesOn env e.transMap (h.get r0).transFunc n n)
    {Q : Matrix (Fin n) (Fin n) ℝ} (hQ : e.Q = some (.m Q)) (hQ' : Q.PosDef)
    (hT : LinearisesOn env e.measMap (h.get r0).measFunc n k)
    {y : Arr} {yv : Fin k → ℝ} (hmeas : (h.get r0).meas = some y) (hy : IsVec y yv) {R : Matrix (Fin k) (Fin k) ℝ}
    (hR : e.R = some (.m R)) (hR' : R.PosDef)
    (hfwd : (h.get r0).fwdUpdate = some (r0, e.projTrans)) (hmu : (h.get r0).measUpdate = some (r0, e.projMeas env))
    (hprev1 : (h.get r1).prev = some r0) (hpow1 : (h.get r1).power = some e.power)
    (hfwd1 : (h.get r1).fwdUpdate = some (r1, e.projTrans)) (hrej : RejectsMatrixMean env n e.transMap (h.get r1).transFunc) :
    ∃ h', epFwdBack env (r0 :: r1 :: rest) h = (.error .value, h') ∧ ∀ q, q ≠ r0 → h'.get q = h.get q := by
  obtain ⟨x, xv, A, E, hx, hE, hTx⟩ := hA g μ0 P0 hg hP0
  have hS : (A * P0 * Aᵀ + E + Q).PosDef := by
    rw [add_assoc]; exact innov_posDef hP0.posSemidef (hQ'.posSemidef_add hE) A
  obtain ⟨F, hf⟩ := fwd_first hcalm hn hp hγ hF hprev hprior hTx hx hQ hS
  obtain ⟨f1, f2, f3, f4, f5, f6⟩ := hF
  have hps : (γ • (A * P0 * Aᵀ + E + Q)⁻¹).PosSemidef := hS.inv.posSemidef.smul hγ
  have hP1 : (TRACE_EPS • (1 : Matrix (Fin n) (Fin n) ℝ) + γ • (A * P0 * Aᵀ + E + Q)⁻¹).PosDef :=
    (Matrix.PosDef.one.smul TRACE_EPS_pos).add_posSemidef hps
  have htr : TRACE_EPS ≤ (TRACE_EPS • (1 : Matrix (Fin n) (Fin n) ℝ) + γ • (A * P0 * Aᵀ + E + Q)⁻¹).trace := by
    rw [trace_add, trace_smul, trace_one, Fintype.card_fin]
    have h1 : (1 : ℝ) ≤ n := by exact_mod_cast Nat.one_le_iff_ne_zero.2 hn
    have h2 := hps.trace_nonneg
    have := TRACE_EPS_pos
    simp only [smul_eq_mul]
    nlinarith
  generalize hM1 : ofNatural (.m (TRACE_EPS • (1 : Matrix (Fin n) (Fin n) ℝ) + γ • (A * P0 * Aᵀ + E + Q)⁻¹))
    (.v (γ • ((A * P0 * Aᵀ + E + Q)⁻¹ *ᵥ xv))) = M1 at hf
  obtain ⟨F', P', W, hP', ht', hm⟩ := meas_first (e := e) (r := r0) (h := h.update r0 (setFwd F M1)) (γ := γ) hcalm hp hγ
    (by rw [Heap.update_get_same]; exact f5) (by rw [Heap.update_get_same]; exact f6)
    (by rw [Heap.update_get_same, ← hM1]; rfl) hP1 htr (by rw [Heap.update_get_same]; exact f3)
    (by rw [Heap.update_get_same]; exact hT) (by rw [Heap.update_get_same]; exact hmeas) hy hR hR'
  rw [Heap.update_update] at hm
  have ha := fwdUpdate_aborts (e := e) (r := r1) (p := r0) (h := h.update r0 (setMeas F' (ofNatural (.m P') (.m W)) ∘ setFwd F M1))
    (by rw [Heap.update_get_ne _ hr]; exact hprev1) (by rw [Heap.update_get_ne _ hr]; exact hpow1) hp.ne'
    (by rw [Heap.update_get_same]; rfl) (by rw [Heap.update_get_same]; exact f4) hP' ht' (hcalm _)
    (by rw [Heap.update_get_ne _ hr]; exact hrej)
  have c1 : fwdCall env r0 h = (.ok (), h.update r0 (setFwd F M1)) := by
    unfold fwdCall; rw [PyM.get_bind, hfwd]; exact hf
  have c2 : measCall env r0 (h.update r0 (setFwd F M1)) =
      (.ok (), h.update r0 (setMeas F' (ofNatural (.m P') (.m W)) ∘ setFwd F M1)) := by
    unfold measCall
    rw [PyM.get_bind, Heap.update_get_same, show (setFwd F M1 (h.get r0)).measUpdate = _ from hmu]; exact hm
  have c3 : fwdCall env r1 (h.update r0 (setMeas F' (ofNatural (.m P') (.m W)) ∘ setFwd F M1)) =
      (.error .value, h.update r0 (setMeas F' (ofNatural (.m P') (.m W)) ∘ setFwd F M1)) := by
    unfold fwdCall
    rw [PyM.get_bind, Heap.update_get_ne _ hr, hfwd1]; exact ha
  refine ⟨h.update r0 (setMeas F' (ofNatural (.m P') (.m W)) ∘ setFwd F M1), ?_, fun q hq => Heap.update_get_ne _ hq _⟩
  unfold epFwdBack
  refine PyM.bind_error (s' := h.update r0 (setMeas F' (ofNatural (.m P') (.m W)) ∘ setFwd F M1)) ?_ _
  unfold PyM.forEach
  refine (PyM.bind_ok (a := ()) ((PyM.bind_ok c1 _).trans c2) _).trans ?_
  unfold PyM.forEach
  exact PyM.bind_error (PyM.bind_error c3 _) _

/-- The program of the experiments up to the first pass: build, equip and wire `N` nodes, then one pass. -/
noncomputable def firstPass (env : Env) (N n : ℕ) (e : Estimator) (sys : Sys) (ys : List Arr) : PyM Heap Unit := do
  let nodes ← graph env N n e sys ys
  epFwdBack env nodes

/-- A state-space model with a proper prior and positive definite noise, and at least two measurements. -/
structure Proper (env : Env) (n k : ℕ) (sys : Sys) (ys : List Arr) : Prop where
  two : 2 ≤ ys.length
  meas : ∀ y ∈ ys, ∃ yv : Fin k → ℝ, IsVec y.squeeze yv
  prior : ∃ (μ : Fin n → ℝ) (P : Matrix (Fin n) (Fin n) ℝ), HasMoments env sys.initState μ P ∧ P.PosDef
  Q : ∃ Q : Matrix (Fin n) (Fin n) ℝ, sys.Q = .m Q ∧ Q.PosDef
  R : ∃ R : Matrix (Fin k) (Fin k) ℝ, sys.R = .m R ∧ R.PosDef

theorem firstPass_aborts {N : ℕ} {e : Estimator} {sys : Sys} {ys : List Arr} (hsys : Proper env n k sys ys) (hN : 2 ≤ N)
    (hcalm : ∀ A : Matrix (Fin n) (Fin n) ℝ, env.illPos A = false) (hn : n ≠ 0) (hp : 0 < e.power) (hγ : 0 ≤ e.damping)
    (hQ : e.Q = some sys.Q) (hR : e.R = some sys.R)
    (hA : LinearisesOn env e.transMap (fun x => sys.transition x (some 0) (some 0)) n n)
    (hT : LinearisesOn env e.measMap (fun x => sys.measurement x none none) n k)
    (hrej : RejectsMatrixMean env n e.transMap (fun x => sys.transition x (some sys.dt) (some 0))) (h : Heap) :
    (firstPass env N n e sys ys h).1 = .error .value := by
  obtain ⟨h2, hmeas, ⟨μ, P, hg, hP⟩, ⟨Q, hQ1, hQ2⟩, ⟨R, hR1, hR2⟩⟩ := hsys
  obtain ⟨y0, y1, ys, rfl⟩ : ∃ y0 y1 ys', ys = y0 :: y1 :: ys' := by
    match ys, h2 with
    | y0 :: y1 :: ys', _ => exact ⟨y0, y1, ys', rfl⟩
  obtain ⟨N, rfl⟩ : ∃ M, N = M + 2 := ⟨N - 2, by omega⟩
  obtain ⟨h', hrun, -, -, hget⟩ := graph_run (env := env) (N + 2) n hN e sys (y0 :: y1 :: ys) (by simp) h
  have g0 := hget 0 y0 (by omega) rfl
  have g1 := hget 1 y1 (by omega) rfl
  rw [Nat.add_zero] at g0
  obtain ⟨yv, hyv⟩ := hmeas y0 (by simp)
  obtain ⟨h'', hab, -⟩ := pass_aborts (env := env) (n := n) (k := k) (e := e) (h := h') (γ := e.damping) (r0 := h.size) (r1 := h.size + 1)
    ((List.range' (h.size + 2) N).take ys.length) hcalm hn hp hγ (ref_ne (by omega))
    (by rw [g0]; exact ⟨rfl, rfl, rfl, rfl, rfl, rfl⟩) (by rw [g0]; rfl) (g := sys.initState) (by rw [g0]; rfl) hg hP
    (by rw [g0]; simpa [builtNode] using hA) (hQ.trans (by rw [hQ1])) hQ2 (by rw [g0]; exact hT) (y := y0.squeeze) (by rw [g0]; rfl) hyv
    (hR.trans (by rw [hR1])) hR2 (by rw [g0]; rfl) (by rw [g0]; rfl) (by rw [g1]; rfl) (by rw [g1]; rfl)
    (by rw [g1]; rfl) (by rw [g1]; simpa [builtNode] using hrej)
  unfold firstPass
  have hrange : (List.range' h.size (N + 2)).take (y0 :: y1 :: ys).length =
      h.size :: (h.size + 1) :: (List.range' (h.size + 2) N).take ys.length := by
    simp [List.range'_succ, List.take_succ_cons]
  rw [hrange] at hrun
  rw [PyM.bind_ok hrun, hab]

/-- **C41.** Expectation propagation with unscented transforms on a state space of dimension two or more, even for the simplest system:
the very first pass raises `ValueError`, whatever the power and the damping are. -/
theorem C41_ep_aborts {N : ℕ} {α β κ α' β' κ' : ℝ} {u w : UT} (hu : UT.init n α β κ = .ok u) (hw : UT.init n α' β' κ' = .ok w)
    (hpos : 0 < α ^ 2 * (n + κ)) (hpos' : 0 < α' ^ 2 * (n + κ')) {e : Estimator} {sys : Sys} {ys : List Arr}
    (hsys : Proper env n k sys ys) (hN : 2 ≤ N) (hn : 2 ≤ n)
    (hcalm : ∀ A : Matrix (Fin n) (Fin n) ℝ, env.illPos A = false) (hp : 0 < e.power) (hγ : 0 ≤ e.damping)
    (hQ : e.Q = some sys.Q) (hR : e.R = some sys.R) (he : e.transMap = u.transform env) (he' : e.measMap = w.transform env)
    {A : ℝ → Matrix (Fin n) (Fin n) ℝ} {b : ℝ → Fin n → ℝ}
    (hA : ∀ t, AffineRows (fun x => sys.transition x (some t) (some 0)) (A t) (b t))
    {H : Matrix (Fin k) (Fin n) ℝ} {c : Fin k → ℝ} (hT : AffineRows (fun x => sys.measurement x none none) H c) (h : Heap) :
    (firstPass env N n e sys ys h).1 = .error .value := by
  refine firstPass_aborts hsys hN hcalm (by omega) hp hγ hQ hR ?_ ?_ ?_ h
  · rw [he]; exact (C20_unscented_exact env hu hpos (hA 0)).linearises
  · rw [he']; exact (C20_unscented_exact env hw hpos' hT).linearises
  · rw [he]
    obtain ⟨-, rfl⟩ := ut_init hu
    have hn1 : n ≠ 1 := by omega
    refine C41_unscented (env := env) (k := n) (u := ⟨n, _, _, _⟩) (f := fun x => sys.transition x (some sys.dt) (some 0)) ?_ hn1
      (fun N X => ⟨_, hA sys.dt N X⟩)
    rw [sq] at hpos
    simpa using hpos.le

/-- A linear system in the plane, with both coordinates measured. -/
noncomputable def planeSys : Sys :=
  { transition := affineSys !![1, 2; 0, 1] ![5, 6]
    measurement := affineSys !![1, 0; 0, 1] ![0, 0]
    Q := .m (1 : Matrix (Fin 2) (Fin 2) ℝ), R := .m (1 : Matrix (Fin 2) (Fin 2) ℝ)
    initState := Gaussian.ofMoment (.v ![1, 1]) (.m (1 : Matrix (Fin 2) (Fin 2) ℝ)), dt := 1 }

-- three time steps with the default parameters, power 1/2 and damping 4/5
example : ∃ u, UT.init 2 1 2 1 = .ok u ∧
    (firstPass calmEnv 3 2 ⟨u.transform calmEnv, u.transform calmEnv, some planeSys.Q, some planeSys.R, 1 / 2, 4 / 5⟩ planeSys
      [.v ![1, 2], .v ![3, 4], .v ![5, 6]] ⟨fun _ => Node.init 0 0, 0⟩).1 = .error .value := by
  obtain ⟨u, hu, -⟩ := (C14_unscented_weights 2 1 2 1).2 (by norm_num)
  refine ⟨u, hu, ?_⟩
  refine C41_ep_aborts (k := 2) hu hu (by norm_num) (by norm_num) ?_ (by norm_num) le_rfl (fun _ => rfl) (by norm_num) (by norm_num) rfl rfl rfl rfl
    (fun _ => affineFunc_rows _ _) (affineFunc_rows _ _) _
  refine ⟨by simp, ?_, ⟨_, _, hasMoments_ofMoment _ _ _, PosDef.one⟩, ⟨_, rfl, PosDef.one⟩, ⟨_, rfl, PosDef.one⟩⟩
  simp only [List.mem_cons, List.not_mem_nil, or_false, forall_eq_or_imp, forall_eq]
  exact ⟨⟨_, .inr rfl⟩, ⟨_, .inr rfl⟩, ⟨_, .inr rfl⟩⟩

/-- The contract of `autograd.jacobian` for a differentiable function between arrays of shape `(1, 1)`: the result has shape
`(1, 1, 1, 1)`. -/
def CorrectSquareJac (jac : Jac) : Prop :=
  ∀ (f : Func) (F : ℝ → ℝ), (∀ x, f (.m (m1 x)) = .ok (.m (m1 (F x)))) → Differentiable ℝ F →
    ∀ x, ∃ t : Tensor, jac f (.m (m1 x)) = .ok t ∧ t.shape = [1, 1, 1, 1]

/-- The function works element by element, as numpy arithmetic does, and is differentiable. -/
def Elementwise (f : Func) (F : ℝ → ℝ) : Prop := (∀ x : Arr, f x = .ok (x.map F)) ∧ Differentiable ℝ F

theorem Elementwise.vec {f : Func} {F : ℝ → ℝ} (h : Elementwise f F) : VecFunc f (fun (x : Fin n → ℝ) i => F (x i)) := fun _ => h.1 _

theorem Elementwise.differentiable {f : Func} {F : ℝ → ℝ} (h : Elementwise f F) : Differentiable ℝ (fun (x : Fin n → ℝ) i => F (x i)) :=
  differentiable_pi.2 fun i => h.2.comp (differentiable_apply i)

/-- **C65.** Expectation propagation with Taylor transforms on a scalar state with differentiable functions: the very first pass raises
`ValueError`, whatever the power and the damping are. -/
theorem C65_ep_aborts {N : ℕ} {jac : Jac} (hjac : CorrectJac jac) (hsq : CorrectSquareJac jac) {e : Estimator} {sys : Sys} {ys : List Arr}
    (hsys : Proper env 1 1 sys ys) (hN : 2 ≤ N) (hcalm : ∀ A : Matrix (Fin 1) (Fin 1) ℝ, env.illPos A = false) (hp : 0 < e.power)
    (hγ : 0 ≤ e.damping) (hQ : e.Q = some sys.Q) (hR : e.R = some sys.R)
    (he : e.transMap = taylorTransform env jac) (he' : e.measMap = taylorTransform env jac)
    {F : ℝ → ℝ → ℝ} {G : ℝ → ℝ} (hF : ∀ t, Elementwise (fun x => sys.transition x (some t) (some 0)) (F t))
    (hG : Elementwise (fun x => sys.measurement x none none) G) (h : Heap) :
    (firstPass env N 1 e sys ys h).1 = .error .value := by
  refine firstPass_aborts hsys hN hcalm one_ne_zero hp hγ hQ hR ?_ ?_ ?_ h
  · rw [he]; exact taylor_linearises hjac (hF 0).vec (hF 0).differentiable
  · rw [he']; exact taylor_linearises hjac hG.vec hG.differentiable
  · have hm : ∀ x, (fun x => sys.transition x (some sys.dt) (some 0)) (.m (m1 x)) = .ok (.m (m1 (F sys.dt x))) := fun x => by
      rw [(hF sys.dt).1]
      refine congrArg (fun M => Except.ok (Arr.m M)) ?_
      ext i j; simp [m1]
    rw [he]
    exact C65_taylor (fun x => ⟨_, hm x⟩) (hsq _ _ hm (hF sys.dt).2)

end Verif
