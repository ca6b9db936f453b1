import Verif.Lemmas.Kalman

/-! Scalar systems: `1 × 1` matrices and Gaussians on the line. -/

namespace Verif

open Matrix

/-- The `1 × 1` matrix with entry `a`. -/
def m1 (a : ℝ) : Matrix (Fin 1) (Fin 1) ℝ := of fun _ _ => a
/-- The vector of length one with entry `a`. -/
def v1 (a : ℝ) : Fin 1 → ℝ := fun _ => a

@[simp] theorem m1_apply (a : ℝ) (i j) : m1 a i j = a := rfl
@[simp] theorem v1_apply (a : ℝ) (i) : v1 a i = a := rfl
theorem m1_ext (A : Matrix (Fin 1) (Fin 1) ℝ) : A = m1 (A 0 0) := by
  ext i j; rw [Subsingleton.elim i 0, Subsingleton.elim j 0]; rfl
theorem v1_ext (f : Fin 1 → ℝ) : f = v1 (f 0) := by ext i; rw [Subsingleton.elim i 0]; rfl
@[simp] theorem m1_mul (a b : ℝ) : m1 a * m1 b = m1 (a * b) := by ext i j; simp [Matrix.mul_apply]
@[simp] theorem m1_add (a b : ℝ) : m1 a + m1 b = m1 (a + b) := rfl
@[simp] theorem m1_sub (a b : ℝ) : m1 a - m1 b = m1 (a - b) := rfl
@[simp] theorem m1_smul (a b : ℝ) : a • m1 b = m1 (a * b) := rfl
@[simp] theorem m1_transpose (a : ℝ) : (m1 a)ᵀ = m1 a := rfl
@[simp] theorem v1_add (a b : ℝ) : v1 a + v1 b = v1 (a + b) := rfl
@[simp] theorem v1_sub (a b : ℝ) : v1 a - v1 b = v1 (a - b) := rfl
@[simp] theorem v1_smul (a b : ℝ) : a • v1 b = v1 (a * b) := rfl
@[simp] theorem m1_mulVec (a b : ℝ) : m1 a *ᵥ v1 b = v1 (a * b) := by ext i; simp [mulVec, dotProduct]
@[simp] theorem m1_det (a : ℝ) : (m1 a).det = a := by simp
@[simp] theorem m1_trace (a : ℝ) : (m1 a).trace = a := by simp [Matrix.trace]
theorem m1_one : (1 : Matrix (Fin 1) (Fin 1) ℝ) = m1 1 := by
  ext i j; rw [Subsingleton.elim i j, Matrix.one_apply_eq]; rfl
theorem m1_zero : (0 : Matrix (Fin 1) (Fin 1) ℝ) = m1 0 := by ext i j; simp
theorem v1_zero : (0 : Fin 1 → ℝ) = v1 0 := rfl
@[simp] theorem m1_inv (a : ℝ) : (m1 a)⁻¹ = m1 a⁻¹ := by
  by_cases h : a = 0
  · subst h; rw [← m1_zero]; simp [m1_zero]
  · refine inv_eq_right_inv ?_
    rw [m1_mul, mul_inv_cancel₀ h, m1_one]
theorem m1_injective {a b : ℝ} : m1 a = m1 b ↔ a = b := ⟨fun h => by simpa using congrFun (congrFun h 0) 0, fun h => by rw [h]⟩
theorem v1_injective {a b : ℝ} : v1 a = v1 b ↔ a = b := ⟨fun h => by simpa using congrFun h 0, fun h => by rw [h]⟩
theorem m1_posDef {a : ℝ} : (m1 a).PosDef ↔ 0 < a := by
  constructor
  · intro h
    have := h.det_pos
    simpa using this
  · intro h
    have := posDef_scalar h
    rwa [m1_ext (diagonal fun _ => a), diagonal_apply_eq] at this
theorem diag_m1 (a : ℝ) : (diagonal fun _ : Fin 1 => a) = m1 a := by
  rw [m1_ext (diagonal fun _ => a), diagonal_apply_eq]

/-- The Gaussian `N(m, c)` on the line. -/
def sG (m c : ℝ) : Gaussian := Gaussian.ofMoment (.v (v1 m)) (.m (m1 c))

theorem sG_moments (env : Env) (m c : ℝ) : HasMoments env (sG m c) (v1 m) (m1 c) := hasMoments_ofMoment _ _ _

@[simp] theorem sG_copyV (env : Env) (m c : ℝ) : (sG m c).copyV env = .ok (sG m c) := copyV_moment _ _

/-- `a` is the number `x` as a scalar or a vector of length one. -/
theorem isVec_s (x : ℝ) : IsVec (.s x) (v1 x) := .inr (by simp)

variable {env : Env} {K : KFS} {t u : Option ℝ}

namespace KFS

theorem predict_scalar {m p x s q : ℝ} {xa cr : Arr}
    (hT : K.transform (fun z => K.transition z t u) (sG m p) = .ok (xa, .m (m1 s), cr)) (hx : IsVec xa (v1 x))
    (hQ : K.Q = .m (m1 q)) : K.predict (sG m p) t u = .ok (sG x (s + q)) := by
  rw [predict_of hT hx hQ, m1_add]; rfl

theorem correct_scalar {m p z s c r y : ℝ} {za ya : Arr}
    (hT : K.measTransform (fun w => K.measurement w t u) (sG m p) = .ok (za, .m (m1 s), .m (m1 c))) (hz : IsVec za (v1 z))
    (hy : IsVec ya (v1 y)) (hR : K.R = .m (m1 r)) (hS : s + r ≠ 0) :
    K.correct env (sG m p) ya t u = .ok (sG (m + c / (s + r) * (y - z)) (p - c / (s + r) * c)) := by
  rw [correct_of (sG_moments env m p) hT hz hy hR (by simpa using hS)]
  simp only [m1_add, m1_inv, m1_transpose, m1_mul, v1_sub, m1_mulVec, v1_add, m1_sub, sG, div_eq_inv_mul]

theorem smooth_scalar {m p ν σ x s c q : ℝ} {xa : Arr}
    (hT : K.transform (fun w => K.transition w t u) (sG m p) = .ok (xa, .m (m1 s), .m (m1 c))) (hx : IsVec xa (v1 x))
    (hQ : K.Q = .m (m1 q)) (hS : s + q ≠ 0) :
    K.smooth env (sG m p) (sG ν σ) t u =
      .ok (sG (m + c / (s + q) * (ν - x)) (p + c / (s + q) * (σ - (s + q)) * (c / (s + q)))) := by
  rw [smooth_of (sG_moments env m p) (sG_moments env ν σ) hT hx hQ (by simpa using hS)]
  simp only [m1_add, m1_inv, m1_transpose, m1_mul, v1_sub, m1_mulVec, v1_add, m1_sub, sG, div_eq_inv_mul]

end KFS

/-- The Taylor transform of a scalar differentiable function. -/
theorem taylor_scalar {jac : Jac} (hjac : CorrectJac jac) {func : Func} {F : ℝ → ℝ} {d m p : ℝ}
    (hf : VecFunc func (fun x : Fin 1 → ℝ => v1 (F (x 0)))) (hF : HasDerivAt F d m) :
    taylorTransform env jac func (sG m p) = .ok (.s (F m), .m (m1 (d * p * d)), .m (m1 (p * d))) := by
  have hD : HasFDerivAt (fun x : Fin 1 → ℝ => v1 (F (x 0)))
      (ContinuousLinearMap.pi fun _ : Fin 1 => d • ContinuousLinearMap.proj (R := ℝ) (φ := fun _ : Fin 1 => ℝ) 0) (v1 m) := by
    rw [hasFDerivAt_pi]
    intro i
    have h1 : HasFDerivAt (fun x : Fin 1 → ℝ => x 0) (ContinuousLinearMap.proj (R := ℝ) (φ := fun _ : Fin 1 => ℝ) 0) (v1 m) :=
      (ContinuousLinearMap.proj (R := ℝ) (φ := fun _ : Fin 1 => ℝ) 0).hasFDerivAt
    have h2 : HasDerivAt F d ((v1 m) 0) := hF
    exact h2.comp_hasFDerivAt (v1 m) h1
  obtain ⟨T, hT, hs, he⟩ := (hjac func _ _ (v1 m) hD).1 hf
  have hJ : (if 2 < T.shape.length then T.squeeze else T).toArr = .ok (.m (m1 d)) := by
    rw [toArr_kn hs, m1_ext (of _)]
    have := he 0 0
    simp only [Fin.val_zero] at this
    simp [this]
  rw [taylor_of_matrix (sG_moments env m p) hT hJ (hf (v1 m))]
  simp

end Verif
