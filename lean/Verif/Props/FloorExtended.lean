import Verif.Props.Floor
import Verif.Props.Total

/-!
# C114 for the extended Kalman filter and smoother on nonlinear systems
-/

namespace Verif

open Matrix Gaussian

variable {env : Env} {n k : ℕ}

/-- For a state with mean `μ` the transform returns the moments of the linear function with value `F μ` at `μ` and matrix `J μ`. -/
def Slopes (env : Env) (T : Transform) (f : Func) (F : (Fin n → ℝ) → Fin k → ℝ) (J : (Fin n → ℝ) → Matrix (Fin k) (Fin n) ℝ) : Prop :=
  ∀ (g : Gaussian) (μ : Fin n → ℝ) (P : Matrix (Fin n) (Fin n) ℝ), HasMoments env g μ P → P.PosDef →
    ∃ z : Arr, IsVec z (F μ) ∧ T f g = .ok (z, .m (J μ * P * (J μ)ᵀ), .m (P * (J μ)ᵀ))

/-- **C114.** The Taylor transform with a correct Jacobian does so for every differentiable function, `J` being the matrix of partial
derivatives. -/
theorem C114_slopes {jac : Jac} (hjac : CorrectJac jac) {f : Func} {F : (Fin n → ℝ) → Fin k → ℝ} (hF : Differentiable ℝ F)
    (hf : VecFunc f F ∨ RowFunc f F ∧ n ≠ 1 ∧ k ≠ 1) : Slopes env (taylorTransform env jac) f F (fun x => jacMat (fderiv ℝ F x)) := by
  intro g μ P hg _
  rcases hf with hf | ⟨hf, h1, h2⟩
  · exact ⟨_, .inr rfl, C17_taylor_linearises hjac hg hf (hF μ).hasFDerivAt⟩
  · exact ⟨_, .inl rfl, C17_taylor_linearises_rows hjac h1 h2 hg hf (hF μ).hasFDerivAt⟩

theorem Slopes.linearises {T : Transform} {f : Func} {F : (Fin n → ℝ) → Fin k → ℝ} {J : (Fin n → ℝ) → Matrix (Fin k) (Fin n) ℝ}
    (h : Slopes env T f F J) : LinearisesOn env T f n k := fun g μ P hg hP => by
  obtain ⟨z, hz, hT⟩ := h g μ P hg hP
  exact ⟨z, _, J μ, 0, hz, PosSemidef.zero, by rw [add_zero]; exact hT⟩

private theorem below_inv {C J : Matrix (Fin n) (Fin n) ℝ} (hC : C.PosDef) (hJ : J.PosDef) (h : ∀ u, quad C⁻¹ u ≤ quad J u) : Below J⁻¹ C := fun u => by
  have := quad_inv_le hC.inv hJ h u
  rwa [nonsing_inv_nonsing_inv _ (posDef_isUnit hC)] at this

private theorem add_info {P : Matrix (Fin n) (Fin n) ℝ} (hP : P.PosDef) {l : ℕ} {S : Matrix (Fin l) (Fin l) ℝ} (hS : S.PosDef)
    (M : Matrix (Fin l) (Fin n) ℝ) : (P + Mᵀ * S⁻¹ * M).PosDef := by
  have h := innov_posDef hS.inv.posSemidef hP Mᵀ
  rwa [transpose_transpose, add_comm] at h

variable {K : KFS} {u : Option ℝ} {Q : Matrix (Fin n) (Fin n) ℝ} {R : Matrix (Fin k) (Fin k) ℝ}

section steps

variable {t : Option ℝ}

private theorem step_info {F : (Fin n → ℝ) → Fin n → ℝ} {A : (Fin n → ℝ) → Matrix (Fin n) (Fin n) ℝ} {G : (Fin n → ℝ) → Fin k → ℝ}
    {H : (Fin n → ℝ) → Matrix (Fin k) (Fin n) ℝ} (hf : Slopes env K.transform (fun x => K.transition x t u) F A)
    (hh : Slopes env K.measTransform (fun x => K.measurement x t u) G H) (hQ : K.Q = .m Q) (hQ' : Q.PosDef) (hR : K.R = .m R)
    (hR' : R.PosDef) {g p r : Gaussian} {m : Fin n → ℝ} {P : Matrix (Fin n) (Fin n) ℝ} (hg : HasMoments env g m P) (hP : P.PosDef)
    {y : Arr} {yv : Fin k → ℝ} (hy : IsVec y yv) (hp : K.predict g t u = .ok p) (hr : K.correct env p y t u = .ok r) :
    ∃ (m' : Fin n → ℝ) (C : Matrix (Fin n) (Fin n) ℝ), r = ofMoment (.v m') (.m C) ∧ C.PosDef ∧
      (∀ v, quad C⁻¹ v ≤ quad (Q⁻¹ + (H (F m))ᵀ * R⁻¹ * H (F m)) v) ∧ ∀ B : Matrix (Fin n) (Fin k) ℝ, B * H (F m) = 1 → Below C (B * R * Bᵀ) := by
  obtain ⟨z, hz, hT⟩ := hf g m P hg hP
  rw [KFS.predict_of hT hz hQ, Except.ok.injEq] at hp
  subst hp
  set J := H (F m)
  have hM : (A m * P * (A m)ᵀ + Q).PosDef := innov_posDef hP.posSemidef hQ' (A m)
  obtain ⟨w, hw, hT'⟩ := hh _ _ _ (hasMoments_ofMoment env (F m) (A m * P * (A m)ᵀ + Q)) hM
  have hpd := innov_posDef hM.posSemidef hR' J
  rw [KFS.correct_of (hasMoments_ofMoment env _ _) hT' hw hy hR (posDef_det_ne hpd), Except.ok.injEq] at hr
  subst hr
  have e : A m * P * (A m)ᵀ + Q - ((J * (A m * P * (A m)ᵀ + Q) * Jᵀ + R)⁻¹ * ((A m * P * (A m)ᵀ + Q) * Jᵀ)ᵀ)ᵀ * ((A m * P * (A m)ᵀ + Q) * Jᵀ)ᵀ =
      condCov (A m * P * (A m)ᵀ + Q) J R := by
    rw [condCov, transpose_mul _ ((A m * P * (A m)ᵀ + Q) * Jᵀ)ᵀ, transpose_transpose, posDef_inv_symm hpd]
  refine ⟨_, _, rfl, ?_, ?_, ?_⟩
  · rw [e]; exact condCov_posDef hM hR' J
  · intro v
    rw [e, condCov_inv hM hR', quad_add_mat, quad_add_mat]
    have := quad_inv_le hQ' hM (fun v => by
      rw [quad_add_mat]
      have := quad_nonneg (congr_posSemidef hP.posSemidef (A m)) v
      linarith) v
    linarith
  · intro B hB v
    have := condCov_optimal hM hR' J B v
    rw [hB, sub_self, Matrix.zero_mul, Matrix.zero_mul, zero_add] at this
    rw [e]; exact this

private theorem smooth_info {F : (Fin n → ℝ) → Fin n → ℝ} {A : (Fin n → ℝ) → Matrix (Fin n) (Fin n) ℝ}
    (hf : Slopes env K.transform (fun x => K.transition x t u) F A) (hQ : K.Q = .m Q) (hQ' : Q.PosDef)
    {m ν : Fin n → ℝ} {P S : Matrix (Fin n) (Fin n) ℝ} (hP : P.PosDef) (hS : S.PosSemidef) {r : Gaussian}
    (hr : K.smooth env (ofMoment (.v m) (.m P)) (ofMoment (.v ν) (.m S)) t u = .ok r) :
    ∃ (m' : Fin n → ℝ) (C : Matrix (Fin n) (Fin n) ℝ), r = ofMoment (.v m') (.m C) ∧
      Below (condCov P (A m) Q) C := by
  have hm := hasMoments_ofMoment env m P
  obtain ⟨z, hz, hT⟩ := hf _ m P hm hP
  have hpd := innov_posDef hP.posSemidef hQ' (A m)
  have hG : ((A m * P * (A m)ᵀ + Q)⁻¹ * (P * (A m)ᵀ)ᵀ)ᵀ = gainMat P (A m) Q := by
    rw [transpose_mul, transpose_transpose, posDef_inv_symm hpd, gainMat]
  rw [KFS.smooth_of hm (hasMoments_ofMoment env ν S) hT hz hQ (posDef_det_ne hpd), hG, Except.ok.injEq] at hr
  subst hr
  refine ⟨_, _, rfl, fun v => ?_⟩
  have e : P + gainMat P (A m) Q * (S - (A m * P * (A m)ᵀ + Q)) * (gainMat P (A m) Q)ᵀ =
      condCov P (A m) Q + gainMat P (A m) Q * S * (gainMat P (A m) Q)ᵀ := by
    have : gainMat P (A m) Q * (A m * P * (A m)ᵀ + Q) = P * (A m)ᵀ := by
      rw [gainMat, Matrix.mul_assoc, posDef_inv_mul hpd, Matrix.mul_one]
    rw [Matrix.mul_sub, Matrix.sub_mul, this, condCov]
    have h2 : P * (A m)ᵀ * (gainMat P (A m) Q)ᵀ = P * (A m)ᵀ * (A m * P * (A m)ᵀ + Q)⁻¹ * (P * (A m)ᵀ)ᵀ := by
      rw [gainMat, transpose_mul, posDef_inv_symm hpd]; simp only [Matrix.mul_assoc]
    rw [h2]; abel
  rw [e]
  show quad _ v ≤ quad _ v
  rw [quad_add_mat]
  have := quad_nonneg (congr_posSemidef hS (gainMat P (A m) Q)) v
  linarith

end steps

variable {F : ℝ → (Fin n → ℝ) → Fin n → ℝ} {A : ℝ → (Fin n → ℝ) → Matrix (Fin n) (Fin n) ℝ} {G : ℝ → (Fin n → ℝ) → Fin k → ℝ}
  {H : ℝ → (Fin n → ℝ) → Matrix (Fin k) (Fin n) ℝ}

/-- **C114.** Extended Kalman filter on a nonlinear system: with `J` the Jacobian of the measurement at the transition of the previous
estimate, every covariance returned is at least `(Q⁻¹ + J'R⁻¹J)⁻¹`, and at most `B R B'` whenever `B J = 1`. -/
theorem C114_extended_filter (hQ : K.Q = .m Q) (hQ' : Q.PosDef) (hR : K.R = .m R) (hR' : R.PosDef)
    (hf : ∀ t, Slopes env K.transform (fun x => K.transition x (some t) u) (F t) (A t))
    (hh : ∀ t, Slopes env K.measTransform (fun x => K.measurement x (some t) u) (G t) (H t)) (prior : Option Gaussian) {μ : Fin n → ℝ}
    {P : Matrix (Fin n) (Fin n) ℝ} (hg : HasMoments env (prior.getD K.initState) μ P) (hP : P.PosDef) (ys : List Arr)
    (hys : ∀ y ∈ ys, ∃ yv : Fin k → ℝ, IsVec y.squeeze yv) (tZero : ℝ) :
    ∃ fs, K.kalmanFilter env ys prior tZero u = .ok fs ∧ fs.length = ys.length ∧ ∀ i < ys.length,
      ∃ (before g : Gaussian) (m m' : Fin n → ℝ) (C C' : Matrix (Fin n) (Fin n) ℝ) (J : Matrix (Fin k) (Fin n) ℝ),
        (prior.getD K.initState :: fs)[i]? = some before ∧ fs[i]? = some g ∧ HasMoments env before m C ∧ HasMoments env g m' C' ∧
        J = H (tZero + i * K.dt) (F (tZero + i * K.dt) m) ∧ C'.PosDef ∧ Below (Q⁻¹ + Jᵀ * R⁻¹ * J)⁻¹ C' ∧
        ∀ B : Matrix (Fin n) (Fin k) ℝ, B * J = 1 → Below C' (B * R * Bᵀ) := by
  obtain ⟨fs, h1, h2, h3⟩ := C75_filter_total (u := u) hQ hQ' hR hR' (fun t => (hf t).linearises) (fun t => (hh t).linearises) prior hg hP ys hys tZero
  refine ⟨fs, h1, h2, fun i hi => ?_⟩
  obtain ⟨before, p, r, e1, e2, e3, e4⟩ := KFS.filterLoop_get h1 i _ (List.getElem?_eq_getElem hi)
  obtain ⟨yv, hy⟩ := hys ys[i] (List.getElem_mem hi)
  obtain ⟨m, C, hm, hC⟩ : ∃ (m : Fin n → ℝ) (C : Matrix (Fin n) (Fin n) ℝ), HasMoments env before m C ∧ C.PosDef := by
    cases i with
    | zero => simp only [List.getElem?_cons_zero, Option.some.injEq] at e1; subst e1; exact ⟨μ, P, hg, hP⟩
    | succ i => exact (h3 before (getElem?_mem (by simpa using e1))).moments env
  obtain ⟨m', C', rfl, q1, q2, q3⟩ := step_info (hf _) (hh _) hQ hQ' hR hR' hm hC hy e3 e4
  exact ⟨before, _, m, m', C, C', _, e1, e2, hm, hasMoments_ofMoment .., rfl, q1, below_inv q1 (add_info hQ'.inv hR' _) q2, q3⟩

/-- **C114.** Extended Kalman smoother on a nonlinear system: every covariance returned (but the last, which is the filter's) is at least
`(Q⁻¹ + J'R⁻¹J + A'Q⁻¹A)⁻¹`, with `J` as for the filter and `A` the Jacobian of the next transition at the filtered mean; the upper
bound is the same as for the filter. -/
theorem C114_extended_smoother (hQ : K.Q = .m Q) (hQ' : Q.PosDef) (hR : K.R = .m R) (hR' : R.PosDef)
    (hf : ∀ t, Slopes env K.transform (fun x => K.transition x (some t) u) (F t) (A t))
    (hh : ∀ t, Slopes env K.measTransform (fun x => K.measurement x (some t) u) (G t) (H t)) (prior : Option Gaussian) {μ : Fin n → ℝ}
    {P : Matrix (Fin n) (Fin n) ℝ} (hg : HasMoments env (prior.getD K.initState) μ P) (hP : P.PosDef) (ys : List Arr) (hne : ys ≠ [])
    (hys : ∀ y ∈ ys, ∃ yv : Fin k → ℝ, IsVec y.squeeze yv) :
    ∃ fs rs, K.kalmanFilter env ys prior 0 u = .ok fs ∧ K.kalmanSmoother env fs u = .ok rs ∧ rs.length = ys.length ∧
      ∀ i < ys.length, ∃ (before g s : Gaussian) (m m' ms : Fin n → ℝ) (C C' Cs : Matrix (Fin n) (Fin n) ℝ) (J : Matrix (Fin k) (Fin n) ℝ),
        (prior.getD K.initState :: fs)[i]? = some before ∧ fs[i]? = some g ∧ rs[i]? = some s ∧ HasMoments env before m C ∧
        HasMoments env g m' C' ∧ HasMoments env s ms Cs ∧ J = H (i * K.dt) (F (i * K.dt) m) ∧ Cs.PosDef ∧
        Below (Q⁻¹ + Jᵀ * R⁻¹ * J + (A ((i + 1) * K.dt) m')ᵀ * Q⁻¹ * A ((i + 1) * K.dt) m')⁻¹ Cs ∧
        ∀ B : Matrix (Fin n) (Fin k) ℝ, B * J = 1 → Below Cs (B * R * Bᵀ) := by
  have hf' := fun t => (hf t).linearises
  have hh' := fun t => (hh t).linearises
  obtain ⟨fs, h1, h2, h3⟩ := C75_filter_total (u := u) hQ hQ' hR hR' hf' hh' prior hg hP ys hys 0
  obtain ⟨rs, h4, h5, h6⟩ := C75_smoother_total (u := u) hQ hQ' hf' fs (by rintro rfl; exact hne (List.length_eq_zero_iff.1 h2.symm)) h3
  refine ⟨fs, rs, h1, h4, h5.trans h2, fun i hi => ?_⟩
  obtain ⟨before, p, r, e1, e2, e3, e4⟩ := KFS.filterLoop_get h1 i _ (List.getElem?_eq_getElem hi)
  rw [zero_add] at e3 e4
  obtain ⟨yv, hy⟩ := hys ys[i] (List.getElem_mem hi)
  obtain ⟨m, C, hm, hC⟩ : ∃ (m : Fin n → ℝ) (C : Matrix (Fin n) (Fin n) ℝ), HasMoments env before m C ∧ C.PosDef := by
    cases i with
    | zero => simp only [List.getElem?_cons_zero, Option.some.injEq] at e1; subst e1; exact ⟨μ, P, hg, hP⟩
    | succ i => exact (h3 before (getElem?_mem (by simpa using e1))).moments env
  obtain ⟨m', C', rfl, q1, q2, q3⟩ := step_info (hf _) (hh _) hQ hQ' hR hR' hm hC hy e3 e4
  obtain ⟨mf, ms, Cf, Cs, a1, a2, a3, a4, a5⟩ := C75_smoothing_reduces_uncertainty hQ hQ' hR hR' hf' hh' prior hg hP ys hys h1 h4 i hi
  have hCf : Cf = C' := by
    rw [e2, Option.some.injEq] at a1
    have a := (hasMoments_ofMoment env m' C').2
    rw [a1] at a
    simpa using (hasMoments_ofMoment env _ _).2.symm.trans a
  have hle : Below Cs C' := fun v => by
    have := quad_nonneg a5 v
    rw [← hCf]
    simp only [quad, sub_mulVec, dotProduct_sub] at this ⊢
    linarith
  set J := H (i * K.dt) (F (i * K.dt) m)
  have hJ := add_info (add_info hQ'.inv hR' J) hQ' (A ((i + 1) * K.dt) m')
  refine ⟨before, _, _, m, m', ms, C, C', Cs, J, e1, e2, a2, hm, hasMoments_ofMoment .., hasMoments_ofMoment .., rfl, a4, ?_,
    fun B hB v => (hle v).trans (q3 B hB v)⟩
  obtain ⟨k1, ⟨last, c, k2, k3, k4⟩, k5⟩ := KFS.kalmanSmoother_get h4
  by_cases hlast : i + 1 < fs.length
  · obtain ⟨later, nx, r', b1, b2, b3, b4⟩ := k5 i _ e2 hlast
    obtain ⟨ml, Cl, hl, hCl⟩ := h6 later (getElem?_mem b1)
    rw [hl, copyV_moment, Except.ok.injEq] at b3
    subst b3
    obtain ⟨m'', C'', rfl, c2⟩ := smooth_info (hf _) hQ hQ' q1 hCl.posSemidef b4
    have hCs : C'' = Cs := by
      rw [a2, Option.some.injEq] at b2
      have a := (hasMoments_ofMoment env ms Cs).2
      rw [b2] at a
      simpa using (hasMoments_ofMoment env _ _).2.symm.trans a
    subst hCs
    refine fun v => (below_inv (condCov_posDef q1 hQ' _) hJ (fun w => ?_) v).trans (c2 v)
    rw [condCov_inv q1 hQ', quad_add_mat, quad_add_mat]
    have := q2 w
    linarith
  · rw [List.getLast?_eq_getElem?, show fs.length - 1 = i by omega, e2, Option.some.injEq] at k2
    rw [List.getLast?_eq_getElem?, show rs.length - 1 = i by omega, a2, Option.some.injEq] at k3
    subst k2
    rw [copyV_moment, Except.ok.injEq] at k4
    have hCs : C' = Cs := by
      have a := (hasMoments_ofMoment env ms Cs).2
      rw [k3, ← k4] at a
      simpa using (hasMoments_ofMoment env _ _).2.symm.trans a
    subst hCs
    refine below_inv q1 hJ fun w => ?_
    rw [quad_add_mat, quad_congr]
    have := q2 w
    have := quad_nonneg hQ'.inv.posSemidef (A ((i + 1) * K.dt) m' *ᵥ w)
    linarith

/-! ## The growth model -/

theorem jac_elementwise {φ : ℝ → ℝ} (hφ : Differentiable ℝ φ) (x : Fin 1 → ℝ) :
    jacMat (fderiv ℝ (fun (x : Fin 1 → ℝ) (i : Fin 1) => φ (x i)) x) = m1 (deriv φ (x 0)) := by
  have h : HasFDerivAt (fun (x : Fin 1 → ℝ) (i : Fin 1) => φ (x i))
      (ContinuousLinearMap.pi fun i => deriv φ (x i) • ContinuousLinearMap.proj (R := ℝ) (φ := fun _ : Fin 1 => ℝ) i) x :=
    hasFDerivAt_pi.2 fun i => ((hφ (x i)).hasDerivAt.comp_hasFDerivAt (f := fun x : Fin 1 → ℝ => x i) x (hasFDerivAt_apply i x))
  rw [h.fderiv]
  ext i j
  fin_cases i; fin_cases j
  simp [jacMat, m1]

/-- **C114.** Extended Kalman filter on the growth model, whatever the measurements: with `x` the transition of the previous estimate,
the variance returned is at least `1/(1 + x²/1000)` and at most `1000/x²`. -/
theorem C114_growth {jac : Jac} (hjac : CorrectJac jac) (ys : List Arr) (hys : ∀ y ∈ ys, ∃ a : ℝ, y = .v (v1 a)) :
    ∃ sys fs, UNGM.init = .ok sys ∧ (KFS.init (taylorTransform env jac) sys none).kalmanFilter env ys none 0 none = .ok fs ∧
      fs.length = ys.length ∧ ∀ i < ys.length, ∃ (before g : Gaussian) (m m' p p' x : ℝ), (sys.initState :: fs)[i]? = some before ∧
        fs[i]? = some g ∧ HasMoments env before (v1 m) (m1 p) ∧ HasMoments env g (v1 m') (m1 p') ∧
        x = m / 2 + 25 * m / (1 + m ^ 2) + 8 * Real.cos (1.2 * i) ∧ 1 / (1 + x ^ 2 / 1000) ≤ p' ∧ x ^ 2 * p' ≤ 1000 := by
  refine ⟨ungm, ?_⟩
  set K := KFS.init (taylorTransform env jac) ungm none
  obtain ⟨fs, h1, h2, h3⟩ := C114_extended_filter (K := K) (u := none) (Q := m1 1) (R := m1 10) rfl (m1_posDef.2 one_pos) rfl (m1_posDef.2 (by norm_num))
    (fun t => C114_slopes (env := env) hjac (ungm_transition t none).differentiable (.inl (ungm_transition t none).vec))
    (fun t => C114_slopes (env := env) hjac (ungm_measurement (some t) none).differentiable (.inl (ungm_measurement (some t) none).vec)) none
    (sG_moments env 0 5) (m1_posDef.2 (by norm_num)) ys (fun y hy => by
      obtain ⟨a, rfl⟩ := hys y hy
      exact ⟨v1 a, .inr rfl⟩) 0
  refine ⟨fs, ungm_init, h1, h2, fun i hi => ?_⟩
  obtain ⟨before, g, m, m', C, C', J, e1, e2, e3, e4, e5, e6, e7, e8⟩ := h3 i hi
  have hdt : K.dt = 1 := rfl
  rw [hdt, zero_add, mul_one, jac_elementwise (ungm_measurement none none).2] at e5
  set x : ℝ := m 0 / 2 + 25 * m 0 / (1 + m 0 ^ 2) + 8 * Real.cos (1.2 * i) with hx
  have hd : deriv (fun a : ℝ => a ^ 2 / 20) = fun a => a / 10 := by
    funext a
    have : HasDerivAt (fun a : ℝ => a ^ 2 / 20) (a / 10) a := by
      refine ((hasDerivAt_pow 2 a).div_const 20).congr_deriv ?_
      norm_num; ring
    exact this.deriv
  have hJ : J = m1 (x / 10) := by
    rw [e5, hd, hx]
    congr 1
    ring
  refine ⟨before, g, m 0, m' 0, C 0 0, C' 0 0, x, e1, e2, ?_, ?_, hx, ?_, ?_⟩
  · rwa [← v1_ext, ← m1_ext]
  · rwa [← v1_ext, ← m1_ext]
  · have h := e7 (v1 1)
    rw [hJ, m1_ext C'] at h
    simp only [m1_transpose, m1_inv, m1_mul, m1_add, m1_mulVec, dotProduct, Finset.univ_unique, Fin.default_eq_zero, Finset.sum_singleton, v1] at h
    refine le_trans (le_of_eq ?_) (h.trans (le_of_eq (by ring)))
    rw [one_div]
    ring_nf
  · by_cases h0 : x = 0
    · rw [h0]; norm_num
    have h := e8 (m1 (10 / x)) (by rw [hJ, m1_mul, div_mul_div_cancel₀' (by norm_num : (10 : ℝ) ≠ 0), m1_one, div_self h0]) (v1 x)
    rw [m1_ext C'] at h
    simp only [m1_transpose, m1_mul, m1_mulVec, dotProduct, Finset.univ_unique, Fin.default_eq_zero, Finset.sum_singleton, v1] at h
    have e : x * (10 / x * 10 * (10 / x) * x) = 1000 := by field_simp; norm_num
    rw [e] at h
    linarith

example : ∃ sys fs, UNGM.init = .ok sys ∧
    (KFS.init (taylorTransform calmEnv exactJac) sys none).kalmanFilter calmEnv [.v (v1 3), .v (v1 5)] none 0 none = .ok fs ∧
    ∃ (g : Gaussian) (m p : ℝ), fs[0]? = some g ∧ HasMoments calmEnv g (v1 m) (m1 p) ∧ 1000 / 1064 ≤ p ∧ p ≤ 1000 / 64 := by
  obtain ⟨sys, fs, h1, h2, -, h3⟩ := C114_growth (env := calmEnv) exactJac_correct [.v (v1 3), .v (v1 5)] (by simp)
  refine ⟨sys, fs, h1, h2, ?_⟩
  obtain ⟨b, g, m, m', p, p', x, e1, e2, e3, e4, e5, e6, e7⟩ := h3 0 (by simp)
  rw [ungm_init, Except.ok.injEq] at h1
  subst h1
  simp only [List.getElem?_cons_zero, Option.some.injEq] at e1
  subst e1
  have hm : m = 0 := by
    have := e3.1.symm.trans (sG_moments calmEnv 0 5).1
    simp only [Except.ok.injEq, Option.some.injEq, Arr.v_inj] at this
    simpa [v1] using congrFun this 0
  have hx : x = 8 := by rw [e5, hm]; simp
  rw [hx] at e6 e7
  exact ⟨g, m', p', e2, e4, le_trans (by norm_num) e6, by linarith⟩

end Verif
