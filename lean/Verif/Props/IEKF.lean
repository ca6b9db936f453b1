import Verif.Props.Filter
import Mathlib.Analysis.SpecificLimits.Basic

/-!
# The iterated extended Kalman filter (C27)
-/

namespace Verif

open Matrix

variable {env : Env} {jac : Jac} {K : KFS} {n k : ℕ} {t u : Option ℝ}

theorem idx0_1kn {T : Tensor} (hs : T.shape = [1, k, n]) :
    (T.idx0 >>= Tensor.toArr) = .ok (.m (of fun (i : Fin k) (j : Fin n) => T.get [0, i, j])) := by
  obtain ⟨sh, gt⟩ := T
  simp only at hs
  subst hs
  simp [Tensor.idx0, Tensor.toArr]
  rfl

theorem idx0_row (f : Fin k → ℝ) : (Arr.m (r := 1) (of fun _ j => f j)).idx0 = .ok (.v f) := by
  simp only [Arr.idx0, Nat.lt_one_iff, dif_pos]; rfl

/-- One pass of the iterated update for a measurement function returning rows. -/
theorem iekfStep_row (hjac : CorrectJac jac) {x m : Fin n → ℝ} {P C : Matrix (Fin n) (Fin n) ℝ} {R : Matrix (Fin k) (Fin k) ℝ}
    {F : (Fin n → ℝ) → Fin k → ℝ} (hf : RowFunc (fun z => K.measurement z t u) F) {F' : (Fin n → ℝ) →L[ℝ] (Fin k → ℝ)}
    (hF : HasFDerivAt F F' m) (hR : K.R = .m R) (hP : P.PosSemidef) (hR' : R.PosDef) {g : Gaussian} (hg : HasMoments env g m C)
    {y : Arr} {yv : Fin k → ℝ} (hy : IsVec y yv) :
    K.iekfStep env jac (.v x) (.m P) y t u g = .ok (Gaussian.ofMoment
      (.v (x + gainMat P (jacMat F') R *ᵥ (yv - (F m - jacMat F' *ᵥ (x - m))))) (.m (condCov P (jacMat F') R))) := by
  obtain ⟨T, hT, hs, he⟩ := (hjac _ F F' m hF).2 hf
  have hJ : (T.idx0 >>= Tensor.toArr) = .ok (.m (jacMat F')) := by
    rw [idx0_1kn hs]; congr 2; ext i j; exact he i j
  have hS := innov_posDef hP hR' (jacMat F')
  have hJ' : ∀ {β : Type} (f : Arr → Py β), (T.idx0 >>= fun a => a.toArr >>= f) = f (.m (jacMat F')) := by
    intro β f
    have : (T.idx0 >>= fun a => a.toArr >>= f) = ((T.idx0 >>= Tensor.toArr) >>= f) := by
      cases T.idx0 <;> rfl
    rw [this, hJ]; rfl
  have hm := hf m
  simp only [KFS.iekfStep, hg.meanA, ok_bind, hT, hm, hJ', hR]
  simp only [idx0_row, ok_bind, Arr.sub_vv, Arr.matmul_mv, Arr.matmul_mm, Arr.T_m, Arr.add_mm,
    npSolve_mm _ (posDef_det_ne hS), hy.atleast1d]
  simp only [ok_bind, Arr.dot_mv, Arr.add_vv, Arr.dot_mm, Arr.sub_mm, py_pure]
  rw [transpose_mul, transpose_transpose, posDef_inv_symm hS]
  rfl

/-! ## C27 -/

/-- **C27.** With `num_iter = 0` the iterated update returns the predicted state itself, whatever the measurement. -/
theorem C27_zero_iterations {μ : Fin n → ℝ} {P : Matrix (Fin n) (Fin n) ℝ} {g : Gaussian} (hg : HasMoments env g μ P) (y : Arr) :
    K.iteratedUpdate env jac 0 g y t u = .ok g := by
  simp [KFS.iteratedUpdate, hg.meanA, hg.covA, KFS.iterate]

/-- **C27.** With one iteration the update is the EKF correction, for every differentiable measurement function returning rows. -/
theorem C27_one_iteration_is_ekf (hjac : CorrectJac jac) (hn : n ≠ 1) (hk : k ≠ 1) (hT : K.measTransform = taylorTransform env jac)
    {μ : Fin n → ℝ} {P : Matrix (Fin n) (Fin n) ℝ} {R : Matrix (Fin k) (Fin k) ℝ} {g : Gaussian} (hg : HasMoments env g μ P)
    (hP : P.PosSemidef) (hR : K.R = .m R) (hR' : R.PosDef) {F : (Fin n → ℝ) → Fin k → ℝ}
    (hf : RowFunc (fun z => K.measurement z t u) F) {F' : (Fin n → ℝ) →L[ℝ] (Fin k → ℝ)} (hF : HasFDerivAt F F' μ)
    {y : Arr} {yv : Fin k → ℝ} (hy : IsVec y yv) :
    K.iteratedUpdate env jac 1 g y t u = K.correct env g y t u := by
  have hS := innov_posDef hP hR' (jacMat F')
  have h1 := C17_taylor_linearises_rows hjac hn hk hg hf hF
  rw [← hT] at h1
  rw [KFS.correct_of hg h1 (isVec_v _) hy hR (posDef_det_ne hS)]
  simp only [KFS.iteratedUpdate, hg.meanA, hg.covA, ok_bind, KFS.iterate, iekfStep_row hjac hf hF hR hP hR' hg hy]
  rw [transpose_mul, transpose_transpose, posDef_inv_symm hS, sub_self, mulVec_zero, sub_zero]
  rfl

/-- **C27**, where the implementation departs from the iterated Kalman filter: the closed form after `j + 1` iterations for an
affine measurement `H x + c`.  With gain `G` and innovation `e` the correction is `G (1 + (-2HG) + (-2HG)² + … + (-2HG)^j) e`
instead of `G e`; the covariance is right. -/
theorem C27_affine_closed_form (hjac : CorrectJac jac) {m : Fin n → ℝ} {P : Matrix (Fin n) (Fin n) ℝ} {R : Matrix (Fin k) (Fin k) ℝ}
    {g : Gaussian} (hg : HasMoments env g m P) (hP : P.PosSemidef) (hR : K.R = .m R) (hR' : R.PosDef)
    {H : Matrix (Fin k) (Fin n) ℝ} {c : Fin k → ℝ} (hf : RowFunc (fun z => K.measurement z t u) (fun x => H *ᵥ x + c))
    {y : Arr} {yv : Fin k → ℝ} (hy : IsVec y yv) (j : ℕ) :
    ∃ r, K.iteratedUpdate env jac (j + 1) g y t u = .ok r ∧
      HasMoments env r
        (m + gainMat P H R *ᵥ ((∑ i ∈ Finset.range (j + 1), ((-2 : ℝ) • (H * gainMat P H R)) ^ i) *ᵥ (yv - (H *ᵥ m + c))))
        (condCov P H R) := by
  have eJ : jacMat (LinearMap.toContinuousLinearMap H.mulVecLin) = H := by ext i j; exact affine_deriv_apply H i j
  set e := yv - (H *ᵥ m + c) with he
  set G := gainMat P H R with hG
  have step : ∀ (d : Fin n → ℝ) (C : Matrix (Fin n) (Fin n) ℝ) (s : Gaussian), HasMoments env s (m + d) C →
      K.iekfStep env jac (.v m) (.m P) y t u s = .ok (Gaussian.ofMoment (.v (m + G *ᵥ (e - (2 : ℝ) • (H *ᵥ d)))) (.m (condCov P H R))) := by
    intro d C s hs
    rw [iekfStep_row hjac hf (hasFDerivAt_affine H c _) hR hP hR' hs hy, eJ]
    congr 5
    rw [he, mulVec_add, mulVec_sub, mulVec_add, two_smul]
    abel
  have geom : ∀ i : ℕ, e - (2 : ℝ) • (H *ᵥ G *ᵥ ((∑ l ∈ Finset.range i, ((-2 : ℝ) • (H * G)) ^ l) *ᵥ e)) =
      (∑ l ∈ Finset.range (i + 1), ((-2 : ℝ) • (H * G)) ^ l) *ᵥ e := by
    intro i
    rw [Finset.sum_range_succ', pow_zero, add_mulVec, one_mulVec]
    have : (∑ l ∈ Finset.range i, ((-2 : ℝ) • (H * G)) ^ (l + 1)) =
        ((-2 : ℝ) • (H * G)) * ∑ l ∈ Finset.range i, ((-2 : ℝ) • (H * G)) ^ l := by
      rw [Finset.mul_sum]; exact Finset.sum_congr rfl fun l _ => by rw [pow_succ']
    rw [this, ← mulVec_mulVec, smul_mulVec, ← mulVec_mulVec, sub_eq_add_neg, ← neg_smul, add_comm]
  have loop : ∀ (j i : ℕ) (C : Matrix (Fin n) (Fin n) ℝ) (s : Gaussian),
      HasMoments env s (m + G *ᵥ ((∑ l ∈ Finset.range i, ((-2 : ℝ) • (H * G)) ^ l) *ᵥ e)) C →
      ∃ r, KFS.iterate (K.iekfStep env jac (.v m) (.m P) y t u) (j + 1) s = .ok r ∧
        HasMoments env r (m + G *ᵥ ((∑ l ∈ Finset.range (i + (j + 1)), ((-2 : ℝ) • (H * G)) ^ l) *ᵥ e)) (condCov P H R) := by
    intro j
    induction j with
    | zero =>
      intro i C s hs
      refine ⟨_, by rw [KFS.iterate, step _ C s hs]; rfl, ?_⟩
      rw [geom]
      exact hasMoments_ofMoment _ _ _
    | succ j ih =>
      intro i C s hs
      have h2 := hasMoments_ofMoment env (m + G *ᵥ ((∑ l ∈ Finset.range (i + 1), ((-2 : ℝ) • (H * G)) ^ l) *ᵥ e)) (condCov P H R)
      obtain ⟨r, hr, hrm⟩ := ih (i + 1) _ _ h2
      refine ⟨r, ?_, ?_⟩
      · rw [KFS.iterate, step _ C s hs, geom]
        exact hr
      · rw [show i + (j + 1 + 1) = i + 1 + (j + 1) by ring]; exact hrm
  obtain ⟨r, hr, hrm⟩ := loop j 0 P g (by simpa using hg)
  refine ⟨r, by simp only [KFS.iteratedUpdate, hg.meanA, hg.covA, ok_bind]; exact hr, ?_⟩
  rw [zero_add] at hrm
  exact hrm

/-- **C27**, consequence: for affine measurements the second iteration already leaves the exact Kalman correction (which the first
one produced) unless the correction happens to vanish after `G H`. -/
theorem C27_two_iterations_wrong (hjac : CorrectJac jac) {m : Fin n → ℝ} {P : Matrix (Fin n) (Fin n) ℝ} {R : Matrix (Fin k) (Fin k) ℝ}
    {g : Gaussian} (hg : HasMoments env g m P) (hP : P.PosSemidef) (hR : K.R = .m R) (hR' : R.PosDef)
    {H : Matrix (Fin k) (Fin n) ℝ} {c : Fin k → ℝ} (hf : RowFunc (fun z => K.measurement z t u) (fun x => H *ᵥ x + c))
    {y : Arr} {yv : Fin k → ℝ} (hy : IsVec y yv) :
    (∃ r, K.iteratedUpdate env jac 1 g y t u = .ok r ∧ HasMoments env r (condMean m P H c R yv) (condCov P H R)) ∧
    ((∃ r, K.iteratedUpdate env jac 2 g y t u = .ok r ∧ HasMoments env r (condMean m P H c R yv) (condCov P H R)) ↔
      gainMat P H R *ᵥ (H *ᵥ (gainMat P H R *ᵥ (yv - (H *ᵥ m + c)))) = 0) := by
  obtain ⟨r1, h1, hm1⟩ := C27_affine_closed_form hjac hg hP hR hR' hf hy 0
  obtain ⟨r2, h2, hm2⟩ := C27_affine_closed_form hjac hg hP hR hR' hf hy 1
  refine ⟨⟨r1, h1, by simpa [condMean] using hm1⟩, ?_⟩
  have e2 : m + gainMat P H R *ᵥ ((∑ i ∈ Finset.range (1 + 1), ((-2 : ℝ) • (H * gainMat P H R)) ^ i) *ᵥ (yv - (H *ᵥ m + c))) =
      condMean m P H c R yv - (2 : ℝ) • (gainMat P H R *ᵥ (H *ᵥ (gainMat P H R *ᵥ (yv - (H *ᵥ m + c))))) := by
    rw [condMean, Finset.sum_range_succ, Finset.sum_range_one, pow_zero, pow_one, add_mulVec, one_mulVec, mulVec_add, smul_mulVec,
      mulVec_smul, neg_smul, mulVec_mulVec _ H]
    abel
  rw [e2] at hm2
  constructor
  · rintro ⟨r, hr, hm⟩
    rw [h2] at hr
    simp only [Except.ok.injEq] at hr
    subst hr
    have := (hasMoments_inj hm hm2).1
    have h3 : (2 : ℝ) • (gainMat P H R *ᵥ (H *ᵥ (gainMat P H R *ᵥ (yv - (H *ᵥ m + c))))) = 0 := by
      rw [eq_comm, sub_eq_self] at this; exact this
    rcases smul_eq_zero.1 h3 with h | h
    · norm_num at h
    · exact h
  · intro h
    rw [h, smul_zero, sub_zero] at hm2
    exact ⟨r2, h2, hm2⟩

/-- **C27**, fixed points: a state whose mean the iteration leaves unchanged satisfies
`(P⁻¹ + 2 H' R⁻¹ H)(m - x) = H' R⁻¹ (y - h(m))` with `H` the Jacobian at `m`, whereas a stationary point of the posterior density, which the
iterated filter is meant to find, satisfies `P⁻¹ (m - x) = H' R⁻¹ (y - h(m))`; so a fixed point is a stationary point iff
`H' R⁻¹ H (m - x) = 0`. -/
theorem C27_fixed_points (hjac : CorrectJac jac) {x m : Fin n → ℝ} {P C : Matrix (Fin n) (Fin n) ℝ} {R : Matrix (Fin k) (Fin k) ℝ}
    (hP : P.PosDef) (hR : K.R = .m R) (hR' : R.PosDef) {F : (Fin n → ℝ) → Fin k → ℝ} (hf : RowFunc (fun z => K.measurement z t u) F)
    {F' : (Fin n → ℝ) →L[ℝ] (Fin k → ℝ)} (hF : HasFDerivAt F F' m) {g r : Gaussian} (hg : HasMoments env g m C)
    {y : Arr} {yv : Fin k → ℝ} (hy : IsVec y yv) (hr : K.iekfStep env jac (.v x) (.m P) y t u g = .ok r)
    (hfix : r.mean env = .ok (some (.v m))) :
    (P⁻¹ + (2 : ℝ) • ((jacMat F')ᵀ * R⁻¹ * jacMat F')) *ᵥ (m - x) = ((jacMat F')ᵀ * R⁻¹) *ᵥ (yv - F m) ∧
    (P⁻¹ *ᵥ (m - x) = ((jacMat F')ᵀ * R⁻¹) *ᵥ (yv - F m) ↔ ((jacMat F')ᵀ * R⁻¹ * jacMat F') *ᵥ (m - x) = 0) := by
  rw [iekfStep_row hjac hf hF hR hP.posSemidef hR' hg hy] at hr
  simp only [Except.ok.injEq] at hr
  subst hr
  rw [Gaussian.mean_ofMoment] at hfix
  simp only [Arr.atleast1d_v, Except.ok.injEq, Option.some.injEq, Arr.v_inj] at hfix
  set H := jacMat F' with hH
  have h1 : m - x = gainMat P H R *ᵥ (yv - (F m - H *ᵥ (x - m))) := by
    have := congrArg (fun w => w - x) hfix
    simp only [add_sub_cancel_left] at this
    exact this.symm
  have h2 : (P⁻¹ + Hᵀ * R⁻¹ * H) *ᵥ (m - x) = (Hᵀ * R⁻¹) *ᵥ (yv - F m) - (Hᵀ * R⁻¹ * H) *ᵥ (m - x) := by
    conv_lhs => rw [h1, mulVec_mulVec, info_mul_gain hP hR' H]
    rw [← mulVec_mulVec _ (Hᵀ * R⁻¹) H, ← mulVec_sub]
    congr 1
    rw [← neg_sub m x, mulVec_neg]
    abel
  have h3 : (P⁻¹ + (2 : ℝ) • (Hᵀ * R⁻¹ * H)) *ᵥ (m - x) = (Hᵀ * R⁻¹) *ᵥ (yv - F m) := by
    rw [two_smul, ← add_assoc, add_mulVec, h2]; abel
  refine ⟨h3, ?_⟩
  rw [← h3, add_mulVec, left_eq_add, smul_mulVec, smul_eq_zero]
  simp

/-! A planar example: both coordinates are measured, prior `N(0, 2 I)`, noise `I`, measurement `(3, 0)`. -/

/-- The affine map `x ↦ A x + b` returned as an array of shape `(1, k)`. -/
def affineRowFunc {k n : ℕ} (A : Matrix (Fin k) (Fin n) ℝ) (b : Fin k → ℝ) : Func
  | @Arr.v n' x => if h : n' = n then .ok (.m (r := 1) (of fun _ j => (A *ᵥ (fun j => x (Fin.cast h.symm j)) + b) j)) else .error .value
  | _ => .error .value

theorem affineRowFunc_row (A : Matrix (Fin k) (Fin n) ℝ) (b : Fin k → ℝ) : RowFunc (affineRowFunc A b) (fun x => A *ᵥ x + b) := by
  intro x; simp [affineRowFunc]

noncomputable def demoIEKF : KFS :=
  KFS.init (taylorTransform calmEnv exactJac)
    { transition := fun x _ _ => affineRowFunc (1 : Matrix (Fin 2) (Fin 2) ℝ) 0 x
      measurement := fun x _ _ => affineRowFunc (1 : Matrix (Fin 2) (Fin 2) ℝ) 0 x
      Q := .m (1 : Matrix (Fin 2) (Fin 2) ℝ), R := .m (1 : Matrix (Fin 2) (Fin 2) ℝ)
      initState := Gaussian.ofMoment (.v ![0, 0]) (.m (1 : Matrix (Fin 2) (Fin 2) ℝ)), dt := 1 } none

/-- The hypotheses of the theorems above are met by a concrete filter, and two iterations give a wrong answer. -/
example : ¬ ∃ r, demoIEKF.iteratedUpdate calmEnv exactJac 2 (Gaussian.ofMoment (.v (0 : Fin 2 → ℝ)) (.m (1 : Matrix (Fin 2) (Fin 2) ℝ)))
    (.v ![3, 0]) (some 0) none = .ok r ∧
    HasMoments calmEnv r (condMean 0 1 (1 : Matrix (Fin 2) (Fin 2) ℝ) 0 1 ![3, 0]) (condCov 1 (1 : Matrix (Fin 2) (Fin 2) ℝ) 1) := by
  have hpd : (1 : Matrix (Fin 2) (Fin 2) ℝ).PosDef := PosDef.one
  rw [(C27_two_iterations_wrong (K := demoIEKF) exactJac_correct (hasMoments_ofMoment calmEnv 0 1) hpd.posSemidef rfl hpd
    (affineRowFunc_row (1 : Matrix (Fin 2) (Fin 2) ℝ) 0) (isVec_v ![3, 0])).2]
  have hg : gainMat (1 : Matrix (Fin 2) (Fin 2) ℝ) (1 : Matrix (Fin 2) (Fin 2) ℝ) 1 = (2 : ℝ)⁻¹ • 1 := by
    rw [gainMat]
    simp only [transpose_one, Matrix.mul_one, Matrix.one_mul]
    refine inv_eq_left_inv ?_
    rw [Matrix.smul_mul, Matrix.one_mul, ← two_smul ℝ (1 : Matrix (Fin 2) (Fin 2) ℝ), smul_smul]
    norm_num
  rw [hg]
  intro h
  have := congrFun h 0
  simp [smul_mulVec] at this

/-- One iteration agrees with the EKF correction on the planar example. -/
example : demoIEKF.iteratedUpdate calmEnv exactJac 1 (Gaussian.ofMoment (.v (0 : Fin 2 → ℝ)) (.m (1 : Matrix (Fin 2) (Fin 2) ℝ)))
    (.v ![3, 0]) (some 0) none =
    demoIEKF.correct calmEnv (Gaussian.ofMoment (.v (0 : Fin 2 → ℝ)) (.m (1 : Matrix (Fin 2) (Fin 2) ℝ))) (.v ![3, 0]) (some 0) none :=
  C27_one_iteration_is_ekf exactJac_correct (by norm_num) (by norm_num) rfl (hasMoments_ofMoment calmEnv 0 1) PosDef.one.posSemidef rfl
    PosDef.one (affineRowFunc_row (1 : Matrix (Fin 2) (Fin 2) ℝ) 0) (hasFDerivAt_affine _ _ _) (isVec_v ![3, 0])

/-- A fixed point that is not a stationary point: for measurement `(4, 0)` the iteration stays at `(1, 0)`, the posterior mode is
`(2, 0)`. -/
example : ∃ r, demoIEKF.iekfStep calmEnv exactJac (.v (0 : Fin 2 → ℝ)) (.m (1 : Matrix (Fin 2) (Fin 2) ℝ)) (.v ![4, 0]) (some 0) none
      (Gaussian.ofMoment (.v ![1, 0]) (.m (1 : Matrix (Fin 2) (Fin 2) ℝ))) = .ok r ∧ r.mean calmEnv = .ok (some (.v ![1, 0])) := by
  refine ⟨_, iekfStep_row (K := demoIEKF) exactJac_correct (affineRowFunc_row (1 : Matrix (Fin 2) (Fin 2) ℝ) 0) (hasFDerivAt_affine _ _ _) rfl
    PosDef.one.posSemidef PosDef.one (hasMoments_ofMoment calmEnv _ _) (isVec_v ![4, 0]), ?_⟩
  have eJ : jacMat (LinearMap.toContinuousLinearMap (1 : Matrix (Fin 2) (Fin 2) ℝ).mulVecLin) = 1 := by
    ext i j; exact affine_deriv_apply 1 i j
  have hg : gainMat (1 : Matrix (Fin 2) (Fin 2) ℝ) (1 : Matrix (Fin 2) (Fin 2) ℝ) 1 = (2 : ℝ)⁻¹ • 1 := by
    rw [gainMat]
    simp only [transpose_one, Matrix.mul_one, Matrix.one_mul]
    refine inv_eq_left_inv ?_
    rw [Matrix.smul_mul, Matrix.one_mul, ← two_smul ℝ (1 : Matrix (Fin 2) (Fin 2) ℝ), smul_smul]
    norm_num
  rw [Gaussian.mean_ofMoment, eJ, hg]
  simp only [Arr.atleast1d_v]
  congr 3
  ext i
  fin_cases i <;> norm_num [smul_mulVec]

/-! Scalar systems whose measurement function returns a vector of length one (the growth model). -/

theorem idx0_11 {T : Tensor} (hs : T.shape = [1, 1]) : (T.idx0 >>= Tensor.toArr) = .ok (.v (v1 (T.get [0, 0]))) := by
  obtain ⟨sh, gt⟩ := T
  simp only at hs
  subst hs
  simp [Tensor.idx0, Tensor.toArr]
  ext i; rw [Subsingleton.elim i 0]; rfl

theorem npSolve_11_1 {a b : ℝ} (h : a ≠ 0) : npSolve (.m (m1 a)) (.v (v1 b)) = .ok (.v (v1 (b / a))) := by
  simp [npSolve, h]
  ext i; simp [div_eq_inv_mul]

theorem hasFDerivAt_v1 {F : ℝ → ℝ} {d m : ℝ} (hF : HasDerivAt F d m) : HasFDerivAt (fun x : Fin 1 → ℝ => v1 (F (x 0)))
    (ContinuousLinearMap.pi fun _ : Fin 1 => d • ContinuousLinearMap.proj (R := ℝ) (φ := fun _ : Fin 1 => ℝ) 0) (v1 m) := by
  rw [hasFDerivAt_pi]
  intro i
  have h1 : HasFDerivAt (fun x : Fin 1 → ℝ => x 0) (ContinuousLinearMap.proj (R := ℝ) (φ := fun _ : Fin 1 => ℝ) 0) (v1 m) :=
    (ContinuousLinearMap.proj (R := ℝ) (φ := fun _ : Fin 1 => ℝ) 0).hasFDerivAt
  have h2 : HasDerivAt F d ((v1 m) 0) := hF
  exact h2.comp_hasFDerivAt (v1 m) h1

/-- One pass of the iterated update for a scalar system. -/
theorem iekfStep_scalar (hjac : CorrectJac jac) {x m p c r d y : ℝ} {F : ℝ → ℝ}
    (hf : VecFunc (fun z => K.measurement z t u) (fun x : Fin 1 → ℝ => v1 (F (x 0)))) (hF : HasDerivAt F d m)
    (hR : K.R = .m (m1 r)) (hS : d * p * d + r ≠ 0) {ya : Arr} (hy : IsVec ya (v1 y)) :
    K.iekfStep env jac (.v (v1 x)) (.m (m1 p)) ya t u (sG m c) =
      .ok (sG (x + p * d / (d * p * d + r) * (y - (F m - d * (x - m)))) (p - p * d / (d * p * d + r) * (p * d))) := by
  obtain ⟨T, hT, hs, he⟩ := (hjac _ _ _ (v1 m) (hasFDerivAt_v1 hF)).1 hf
  have hJ : (T.idx0 >>= Tensor.toArr) = .ok (.v (v1 d)) := by
    rw [idx0_11 hs]
    have := he 0 0
    simp only [Fin.val_zero] at this
    rw [this]; simp
  have hJ' : ∀ {β : Type} (f : Arr → Py β), (T.idx0 >>= fun a => a.toArr >>= f) = f (.v (v1 d)) := by
    intro β f
    have : (T.idx0 >>= fun a => a.toArr >>= f) = ((T.idx0 >>= Tensor.toArr) >>= f) := by
      cases T.idx0 <;> rfl
    rw [this, hJ]; rfl
  have hm := hf (v1 m)
  have hi : (Arr.v (v1 (F m))).idx0 = .ok (.s (F m)) := by simp [Arr.idx0]
  have hvm : v1 d ᵥ* m1 p = v1 (d * p) := by ext i; simp [vecMul, dotProduct]
  have hdot : ∀ a b : ℝ, v1 a ⬝ᵥ v1 b = a * b := fun a b => by simp [dotProduct]
  have hsm : (Arr.s (d * p * d)).add (.m (m1 r)) = .ok (.m (m1 (d * p * d + r))) := by
    simp [Arr.add, Arr.zip, Arr.bget]; rfl
  have hvs : ∀ a b : ℝ, (Arr.v (v1 a)).sub (.s b) = .ok (.v (v1 (a - b))) := fun a b => by
    simp [Arr.sub, Arr.zip, Arr.bget]; rfl
  have hva : ∀ a b : ℝ, (Arr.v (v1 a)).add (.s b) = .ok (.v (v1 (a + b))) := fun a b => by
    simp [Arr.add, Arr.zip, Arr.bget]; rfl
  have hms : ∀ a b : ℝ, (Arr.m (m1 a)).sub (.s b) = .ok (.m (m1 (a - b))) := fun a b => by
    simp [Arr.sub, Arr.zip, Arr.bget]; rfl
  simp only [KFS.iekfStep, (sG_moments env m c).meanA, ok_bind, hT, hm, hJ', hR, v1_apply, hi, Arr.sub_vv, v1_sub, Arr.matmul_vv,
    hdot, Arr.sub_ss, Arr.matmul_vm, hvm, Arr.T_v, hsm, Arr.matmul_mv, m1_mulVec, npSolve_11_1 hS, hy.atleast1d, hvs, Arr.dot_vv,
    hva, hms, py_pure]
  rfl

/-- **C27** for scalar systems: one iteration is the EKF correction. -/
theorem C27_one_iteration_is_ekf_scalar (hjac : CorrectJac jac) (hT : K.measTransform = taylorTransform env jac) {m p r d y : ℝ}
    {F : ℝ → ℝ} (hf : VecFunc (fun z => K.measurement z t u) (fun x : Fin 1 → ℝ => v1 (F (x 0)))) (hF : HasDerivAt F d m)
    (hR : K.R = .m (m1 r)) (hS : d * p * d + r ≠ 0) {ya : Arr} (hy : IsVec ya (v1 y)) :
    K.iteratedUpdate env jac 1 (sG m p) ya t u = K.correct env (sG m p) ya t u := by
  have h1 := taylor_scalar (env := env) (p := p) hjac hf hF
  rw [← hT] at h1
  rw [KFS.correct_scalar h1 (isVec_s _) hy hR hS]
  simp only [KFS.iteratedUpdate, (sG_moments env m p).meanA, (sG_moments env m p).covA, ok_bind, KFS.iterate,
    iekfStep_scalar hjac hf hF hR hS hy]
  rw [sub_self, mul_zero, sub_zero]

/-- **C27**, divergence: for a scalar affine measurement `h x + c` that is more informative than the prior (`r < h² p`), every
nonzero innovation makes the iterates' means run off to infinity as `num_iter` grows. -/
theorem C27_scalar_divergence (hjac : CorrectJac jac) {m p r h c y : ℝ} (hr : 0 < r) (hhp : r < h * p * h)
    (hf : VecFunc (fun z => K.measurement z t u) (fun x : Fin 1 → ℝ => v1 ((fun x => h * x + c) (x 0))))
    (hR : K.R = .m (m1 r)) {ya : Arr} (hy : IsVec ya (v1 y)) (hne : y ≠ h * m + c) :
    ∃ M : ℕ → ℝ, (∀ j, ∃ C, K.iteratedUpdate env jac j (sG m p) ya t u = .ok (sG (M j) C)) ∧
      Filter.Tendsto (fun j => |M j|) Filter.atTop Filter.atTop := by
  set S := h * p * h + r with hS
  have hSpos : 0 < S := by nlinarith [mul_self_nonneg h]
  set q := -2 * (h * (p * h / S)) with hq
  set e := y - (h * m + c) with he
  have he0 : e ≠ 0 := sub_ne_zero.2 hne
  have hq1 : q < -1 := by
    rw [hq]
    have : (1 : ℝ) / 2 < h * (p * h / S) := by
      rw [← mul_div_assoc, lt_div_iff₀ hSpos]; nlinarith
    linarith
  have hd : ∀ x, HasDerivAt (fun x => h * x + c) h x := fun x => by
    simpa using ((hasDerivAt_id x).const_mul h).add_const c
  have hG0 : p * h / S ≠ 0 := by
    intro h0
    rw [hq, h0] at hq1; norm_num at hq1
  set M : ℕ → ℝ := fun j => m + p * h / S * (e * ((1 - q ^ j) / (1 - q))) with hM
  have h1q : (1 - q) ≠ 0 := by linarith
  have hrec : ∀ j C, K.iekfStep env jac (.v (v1 m)) (.m (m1 p)) ya t u (sG (M j) C) = .ok (sG (M (j + 1)) (p - p * h / S * (p * h))) := by
    intro j C
    rw [iekfStep_scalar hjac hf (hd _) hR hSpos.ne' hy]
    congr 2
    simp only [hM]
    rw [← hS]
    congr 1
    congr 1
    have e1 : y - (h * (m + p * h / S * (e * ((1 - q ^ j) / (1 - q)))) + c - h * (m - (m + p * h / S * (e * ((1 - q ^ j) / (1 - q)))))) =
        e + q * (e * ((1 - q ^ j) / (1 - q))) := by
      rw [hq, he]; ring
    rw [e1]
    field_simp
    ring
  have loop : ∀ l j C, ∃ C', KFS.iterate (K.iekfStep env jac (.v (v1 m)) (.m (m1 p)) ya t u) l (sG (M j) C) = .ok (sG (M (j + l)) C') := by
    intro l
    induction l with
    | zero => intro j C; exact ⟨C, rfl⟩
    | succ l ih =>
      intro j C
      obtain ⟨C', h'⟩ := ih (j + 1) (p - p * h / S * (p * h))
      refine ⟨C', ?_⟩
      rw [KFS.iterate, hrec, show j + (l + 1) = j + 1 + l by ring]
      exact h'
  refine ⟨M, fun j => ?_, ?_⟩
  · obtain ⟨C', h'⟩ := loop j 0 p
    refine ⟨C', ?_⟩
    have hM0 : M 0 = m := by simp [hM]
    rw [hM0, zero_add] at h'
    simp only [KFS.iteratedUpdate, (sG_moments env m p).meanA, (sG_moments env m p).covA, ok_bind]
    exact h'
  · have hpow : Filter.Tendsto (fun j : ℕ => |q ^ j|) Filter.atTop Filter.atTop := by
      simp only [abs_pow]
      exact tendsto_pow_atTop_atTop_of_one_lt (by rw [abs_of_neg (by linarith)]; linarith)
    set A := p * h / S * e / (1 - q) with hA
    have hA0 : A ≠ 0 := div_ne_zero (mul_ne_zero hG0 he0) h1q
    have hMj : ∀ j, |A| * |q ^ j| - |m + A| ≤ |M j| := by
      intro j
      have : M j = (m + A) - A * q ^ j := by simp only [hM, hA]; field_simp; ring
      rw [this, ← abs_mul]
      have := abs_sub_abs_le_abs_sub (A * q ^ j) (m + A)
      rw [abs_sub_comm] at this
      exact this
    refine Filter.tendsto_atTop_mono hMj ?_
    exact Filter.tendsto_atTop_add_const_right _ _ (hpow.const_mul_atTop (abs_pos.2 hA0))

/-- The switch system observes `x` directly with noise 1; prior variance 2 is less informative than that, so the iteration diverges. -/
example : ∃ M : ℕ → ℝ, (∀ j, ∃ C, (switchKFS 0).iteratedUpdate calmEnv exactJac j (sG 0 2) (.s 1) (some 0) none = .ok (sG (M j) C)) ∧
    Filter.Tendsto (fun j => |M j|) Filter.atTop Filter.atTop :=
  C27_scalar_divergence (h := 1) (c := 0) (r := 1) (y := 1) exactJac_correct one_pos (by norm_num)
    (by
      intro x
      refine (affineFunc_vec (m1 1) (v1 0) x).trans ?_
      rw [v1_ext x]; simp) rfl (isVec_s 1) (by norm_num)

theorem iekfLoop_get {N : ℕ} {ys : List Arr} : ∀ {g : Gaussian} {t : ℝ} {rs : List Gaussian},
    K.iekfLoop env jac N u g t ys = .ok rs → rs.length = ys.length ∧ ∀ (i : ℕ) (y : Arr), ys[i]? = some y →
      ∃ prev pred r, (g :: rs)[i]? = some prev ∧ rs[i]? = some r ∧ K.predict prev (some (t + i * K.dt)) u = .ok pred ∧
        K.iteratedUpdate env jac N pred y.squeeze (some (t + i * K.dt)) u = .ok r := by
  induction ys with
  | nil =>
    intro g t rs h
    simp only [KFS.iekfLoop, Except.ok.injEq] at h
    subst h
    exact ⟨rfl, fun i y hy => by simp at hy⟩
  | cons y ys ih =>
    intro g t rs h
    simp only [KFS.iekfLoop] at h
    obtain ⟨p, hp, h⟩ := py_bind_ok h
    obtain ⟨c, hc, h⟩ := py_bind_ok h
    obtain ⟨r, hr, h⟩ := py_bind_ok h
    simp only [py_pure, Except.ok.injEq] at h
    subst h
    obtain ⟨hl, hg⟩ := ih hr
    refine ⟨by simp [hl], fun i y' hy => ?_⟩
    cases i with
    | zero =>
      simp only [List.getElem?_cons_zero, Option.some.injEq] at hy
      subst hy
      exact ⟨g, p, c, rfl, rfl, by simpa using hp, by simpa using hc⟩
    | succ i =>
      obtain ⟨prev, pred, r', h1, h2, h3, h4⟩ := hg i y' (by simpa using hy)
      have e : t + K.dt + (i : ℝ) * K.dt = t + ((i + 1 : ℕ) : ℝ) * K.dt := by push_cast; ring
      rw [e] at h3 h4
      exact ⟨prev, pred, r', by simpa using h1, by simpa using h2, h3, h4⟩

/-- **C27.** Calling an `IEKF` object: one result per measurement; each is the iterated update, with its own measurement, of the prediction
from the previous result (the prior, by default the system's initial state, for the first), both at `t_zero + i dt`. -/
theorem C27_call_recursion (ys : List Arr) (N : ℕ) (prior : Option Gaussian) (tZero : ℝ) (rs : List Gaussian)
    (h : K.iekf env jac ys N prior tZero u = .ok rs) : rs.length = ys.length ∧ ∀ (i : ℕ) (y : Arr), ys[i]? = some y →
      ∃ prev pred r, (if i = 0 then some (prior.getD K.initState) else rs[i - 1]?) = some prev ∧ rs[i]? = some r ∧
        K.predict prev (some (tZero + i * K.dt)) u = .ok pred ∧
        K.iteratedUpdate env jac N pred y.squeeze (some (tZero + i * K.dt)) u = .ok r := by
  obtain ⟨h0, hg⟩ := iekfLoop_get h
  refine ⟨h0, fun i y hy => ?_⟩
  obtain ⟨prev, pred, r, h1, h2, h3, h4⟩ := hg i y hy
  refine ⟨prev, pred, r, ?_, h2, h3, h4⟩
  cases i with
  | zero => simpa using h1
  | succ i => simpa using h1

/-- **C27.** Wherever a single iteration is the EKF correction (`C27_one_iteration_is_ekf`, `C27_one_iteration_is_ekf_scalar`), the whole
filter with `num_iter = 1` is the EKF. -/
theorem C27_call_one_iteration (ys : List Arr) (prior : Option Gaussian) (tZero : ℝ) (rs : List Gaussian)
    (h : K.kalmanFilter env ys prior tZero u = .ok rs)
    (h1 : ∀ prev ∈ prior.getD K.initState :: rs, ∀ pred t, K.predict prev t u = .ok pred → ∀ y ∈ ys,
      K.iteratedUpdate env jac 1 pred y.squeeze t u = K.correct env pred y.squeeze t u) :
    K.iekf env jac ys 1 prior tZero u = .ok rs := by
  suffices ∀ (ys : List Arr) (g : Gaussian) (t : ℝ) (rs : List Gaussian), K.filterLoop env u g t ys = .ok rs →
      (∀ prev ∈ g :: rs, ∀ pred t, K.predict prev t u = .ok pred → ∀ y ∈ ys,
        K.iteratedUpdate env jac 1 pred y.squeeze t u = K.correct env pred y.squeeze t u) →
      K.iekfLoop env jac 1 u g t ys = .ok rs from this ys _ _ rs h h1
  intro ys
  induction ys with
  | nil => intro g t rs h _; simpa [KFS.iekfLoop, KFS.filterLoop] using h
  | cons y ys ih =>
    intro g t rs h h1
    simp only [KFS.filterLoop] at h
    obtain ⟨p, hp, h⟩ := py_bind_ok h
    obtain ⟨c, hc, h⟩ := py_bind_ok h
    obtain ⟨r, hr, h⟩ := py_bind_ok h
    simp only [py_pure, Except.ok.injEq] at h
    subst h
    have e := h1 g List.mem_cons_self p _ hp y List.mem_cons_self
    simp only [KFS.iekfLoop, hp, ok_bind, e, hc, ih c _ r hr (fun prev hm pred t hpr y hy =>
      h1 prev (List.mem_cons_of_mem _ hm) pred t hpr y (List.mem_cons_of_mem _ hy)), py_pure]

/-- Running the switch system for two steps with two iterations: the second result starts from the first. -/
example (rs : List Gaussian) (h : (switchKFS 0).iekf calmEnv exactJac [.s 1, .s 2] 2 none 0 none = .ok rs) :
    ∃ prev pred r, rs[0]? = some prev ∧ rs[1]? = some r ∧ (switchKFS 0).predict prev (some (0 + ((1 : ℕ) : ℝ) * (switchKFS 0).dt)) none = .ok pred ∧
      (switchKFS 0).iteratedUpdate calmEnv exactJac 2 pred (.s 2) (some (0 + ((1 : ℕ) : ℝ) * (switchKFS 0).dt)) none = .ok r :=
  (C27_call_recursion [.s 1, .s 2] 2 none 0 rs h).2 1 (.s 2) rfl

end Verif
