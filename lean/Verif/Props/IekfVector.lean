import Verif.Props.IEKF

/-!
# The iterated update with measurement functions that return vectors (C27, continued)

`_iterated_update` takes `[0]` of the measurement and of its Jacobian. That is the batch axis when the function returns rows; when it
returns vectors, the first component is taken for the whole measurement.
-/

namespace Verif

open Matrix

variable {env : Env} {jac : Jac} {K : KFS} {n k : ℕ} {t u : Option ℝ}

/-- The first row of a Jacobian of rank two. -/
theorem idx0_kn {T : Tensor} (hk : 0 < k) (hs : T.shape = [k, n]) :
    (T.idx0 >>= Tensor.toArr) = .ok (.v fun j : Fin n => T.get [0, j]) := by
  obtain ⟨sh, gt⟩ := T
  simp only at hs
  subst hs
  simp [Tensor.idx0, Tensor.toArr, hk]

/-- One pass of the iterated update for a measurement function returning vectors, up to the call of `np.linalg.solve`. -/
private theorem iekfStep_vec (hjac : CorrectJac jac) (hk : 0 < k) {x m : Fin n → ℝ} {P C : Matrix (Fin n) (Fin n) ℝ}
    {R : Matrix (Fin k) (Fin k) ℝ} {F : (Fin n → ℝ) → Fin k → ℝ} (hf : VecFunc (fun z => K.measurement z t u) F)
    {F' : (Fin n → ℝ) →L[ℝ] (Fin k → ℝ)} (hF : HasFDerivAt F F' m) (hR : K.R = .m R) {g : Gaussian} (hg : HasMoments env g m C)
    {y : Arr} {yv : Fin k → ℝ} (hy : IsVec y yv) :
    K.iekfStep env jac (.v x) (.m P) y t u g = (do
      let H := jacMat F' ⟨0, hk⟩
      let G ← npSolve (.m (of fun i j => H ⬝ᵥ P *ᵥ H + R i j)) (.v (P *ᵥ H))
      let mean ← (Arr.v x).add (← G.T.dot (.v fun i => yv i - (F m ⟨0, hk⟩ - H ⬝ᵥ (x - m))))
      let cov ← (Arr.m P).sub (← G.T.dot (.v (P *ᵥ H)))
      return Gaussian.ofMoment mean cov) := by
  obtain ⟨T, hT, hs, he⟩ := (hjac _ F F' m hF).1 hf
  have hJ : (T.idx0 >>= Tensor.toArr) = .ok (.v (jacMat F' ⟨0, hk⟩)) := by
    rw [idx0_kn hk hs]; congr 2; ext j; exact he ⟨0, hk⟩ j
  have hJ' : ∀ {β : Type} (f : Arr → Py β), (T.idx0 >>= fun a => a.toArr >>= f) = f (.v (jacMat F' ⟨0, hk⟩)) := by
    intro β f
    have : (T.idx0 >>= fun a => a.toArr >>= f) = ((T.idx0 >>= Tensor.toArr) >>= f) := by
      cases T.idx0 <;> rfl
    rw [this, hJ]; rfl
  have hm := hf m
  have hi : (Arr.v (F m)).idx0 = .ok (.s (F m ⟨0, hk⟩)) := by simp [Arr.idx0, hk]
  have hmod : ∀ i : Fin k, i.val % k = i.val := fun i => Nat.mod_eq_of_lt i.2
  have hsm : ∀ a : ℝ, (Arr.s a).add (.m R) = .ok (.m (of fun i j => a + R i j)) := fun a => by
    simp [Arr.add, Arr.zip, Arr.bget, hmod]; rfl
  have hvs : ∀ a : ℝ, (Arr.v yv).sub (.s a) = .ok (.v fun i => yv i - a) := fun a => by
    simp [Arr.sub, Arr.zip, Arr.bget, hmod]
  simp only [KFS.iekfStep, hg.meanA, ok_bind, hT, hm, hJ', hR, hi, Arr.sub_vv, Arr.matmul_vv, Arr.sub_ss, Arr.matmul_vm, Arr.T_v,
    hsm, Arr.matmul_mv, hy.atleast1d, hvs, dotProduct_mulVec]

/-- **C27**, vectors of another length: if the measurement function returns vectors and the measurement has not as many components as
the state, the iterated update raises `ValueError` for every number of iterations and every measurement. -/
theorem C27_vector_mismatch (hjac : CorrectJac jac) (hk : 0 < k) (hkn : k ≠ n) {x : Fin n → ℝ} {P : Matrix (Fin n) (Fin n) ℝ}
    {R : Matrix (Fin k) (Fin k) ℝ} {F : (Fin n → ℝ) → Fin k → ℝ} (hf : VecFunc (fun z => K.measurement z t u) F)
    (hF : DifferentiableAt ℝ F x) (hR : K.R = .m R) {g : Gaussian} (hg : HasMoments env g x P) {y : Arr} {yv : Fin k → ℝ}
    (hy : IsVec y yv) (N : ℕ) : K.iteratedUpdate env jac (N + 1) g y t u = .error .value := by
  simp only [KFS.iteratedUpdate, hg.meanA, hg.covA, ok_bind, KFS.iterate]
  rw [iekfStep_vec hjac hk hf hF.hasFDerivAt hR hg hy]
  simp only [npSolve, dif_pos, dif_neg hkn]
  rfl

private theorem step_square (hjac : CorrectJac jac) (hn : 0 < n) {x m : Fin n → ℝ} {P C R : Matrix (Fin n) (Fin n) ℝ}
    {F : (Fin n → ℝ) → Fin n → ℝ} (hf : VecFunc (fun z => K.measurement z t u) F) {F' : (Fin n → ℝ) →L[ℝ] (Fin n → ℝ)}
    (hF : HasFDerivAt F F' m) (hR : K.R = .m R) (hP : P.PosSemidef) (hR' : R.PosDef) {g : Gaussian} (hg : HasMoments env g m C)
    {y : Arr} {yv : Fin n → ℝ} (hy : IsVec y yv) {H : Fin n → ℝ} (hH : H = jacMat F' ⟨0, hn⟩) {G : Fin n → ℝ}
    (hG : G = (of fun i j => H ⬝ᵥ P *ᵥ H + R i j)⁻¹ *ᵥ (P *ᵥ H)) :
    K.iekfStep env jac (.v x) (.m P) y t u g = .ok (Gaussian.ofMoment
      (.v fun i => x i + ∑ j, G j * (yv j - (F m ⟨0, hn⟩ - H ⬝ᵥ (x - m))))
      (.m (of fun i j => P i j - G ⬝ᵥ P *ᵥ H))) := by
  have hS : (of fun i j => H ⬝ᵥ P *ᵥ H + R i j : Matrix (Fin n) (Fin n) ℝ).PosDef := by
    have h0 : 0 ≤ H ⬝ᵥ P *ᵥ H := by simpa using hP.dotProduct_mulVec_nonneg H
    have h1 : (of fun i j => H ⬝ᵥ P *ᵥ H + R i j : Matrix (Fin n) (Fin n) ℝ) =
        (H ⬝ᵥ P *ᵥ H) • vecMulVec (fun _ => 1) (star fun _ => 1) + R := by
      ext i j; simp [vecMulVec]
    rw [h1]
    exact PosDef.posSemidef_add ((posSemidef_vecMulVec_self_star _).smul h0) hR'
  have hdet := posDef_det_ne hS
  rw [iekfStep_vec hjac hn hf hF hR hg hy]
  have hmod : ∀ i : Fin n, i.val % n = i.val := fun i => Nat.mod_eq_of_lt i.2
  have hva : ∀ a : ℝ, (Arr.v x).add (.s a) = .ok (.v fun i => x i + a) := fun a => by
    simp [Arr.add, Arr.zip, Arr.bget, hmod]
  have hms : ∀ a : ℝ, (Arr.m P).sub (.s a) = .ok (.m (of fun i j => P i j - a)) := fun a => by
    simp [Arr.sub, Arr.zip, Arr.bget, hmod]; rfl
  have hsol : npSolve (.m (of fun i j => H ⬝ᵥ P *ᵥ H + R i j)) (.v (P *ᵥ H)) = .ok (.v G) := by
    simp only [npSolve, dif_pos, Fin.cast_refl, submatrix_id_id]
    rw [if_neg hdet, hG]
    rfl
  simp only [← hH, hsol, ok_bind, Arr.T_v, Arr.dot_vv, hva, hms, py_pure]
  rfl

/-- **C27**, vectors of the same length: if the measurement function returns vectors with as many components as the state, one pass of
the iterated update runs, but is no correction: with the first row `H` of the Jacobian, `s = H P Hᵀ` and `G = (R + s 1 1ᵀ)⁻¹ P Hᵀ`, it adds
the same number `Σ_j G_j (y_j - h_0(x))` to every component of the mean and subtracts `G · P Hᵀ` from every entry of the covariance.
The components of the measurement function after the first have no effect. -/
theorem C27_vector_square (hjac : CorrectJac jac) (hn : 0 < n) {x : Fin n → ℝ} {P R : Matrix (Fin n) (Fin n) ℝ}
    {F : (Fin n → ℝ) → Fin n → ℝ} (hf : VecFunc (fun z => K.measurement z t u) F) {F' : (Fin n → ℝ) →L[ℝ] (Fin n → ℝ)}
    (hF : HasFDerivAt F F' x) (hR : K.R = .m R) (hP : P.PosSemidef) (hR' : R.PosDef) {g : Gaussian} (hg : HasMoments env g x P)
    {y : Arr} {yv : Fin n → ℝ} (hy : IsVec y yv) {H : Fin n → ℝ} (hH : ∀ j, H j = F' (Pi.single j 1) ⟨0, hn⟩) {G : Fin n → ℝ}
    (hG : (R + (H ⬝ᵥ P *ᵥ H) • of fun _ _ => 1) *ᵥ G = P *ᵥ H) :
    ∃ g', K.iteratedUpdate env jac 1 g y t u = .ok g' ∧
      HasMoments env g' (fun i => x i + ∑ j, G j * (yv j - F x ⟨0, hn⟩)) (of fun i j => P i j - G ⬝ᵥ P *ᵥ H) := by
  have hS : (of fun i j => H ⬝ᵥ P *ᵥ H + R i j : Matrix (Fin n) (Fin n) ℝ) = R + (H ⬝ᵥ P *ᵥ H) • of fun _ _ => 1 := by
    ext i j; simp [add_comm]
  have hH' : H = jacMat F' ⟨0, hn⟩ := funext hH
  have hSd : (R + (H ⬝ᵥ P *ᵥ H) • of fun _ _ => 1).PosDef := by
    have h0 : 0 ≤ H ⬝ᵥ P *ᵥ H := by simpa using hP.dotProduct_mulVec_nonneg H
    have h1 : (of fun _ _ => 1 : Matrix (Fin n) (Fin n) ℝ) = vecMulVec (fun _ => 1) (star fun _ => 1) := by
      ext i j; simp [vecMulVec]
    rw [h1]
    exact PosDef.add_posSemidef hR' ((posSemidef_vecMulVec_self_star _).smul h0)
  have hG' : G = (of fun i j => H ⬝ᵥ P *ᵥ H + R i j)⁻¹ *ᵥ (P *ᵥ H) := by
    have h := congrArg ((R + (H ⬝ᵥ P *ᵥ H) • of fun _ _ => 1)⁻¹ *ᵥ ·) hG
    simp only [mulVec_mulVec] at h
    rw [nonsing_inv_mul _ (isUnit_iff_ne_zero.2 (posDef_det_ne hSd)), one_mulVec] at h
    rw [hS, h, mulVec_mulVec]
  refine ⟨_, ?_, hasMoments_ofMoment _ _ _⟩
  simp only [KFS.iteratedUpdate, hg.meanA, hg.covA, ok_bind, KFS.iterate]
  rw [step_square hjac hn hf hF hR hP hR' hg hy hH' hG', ok_bind, sub_self, dotProduct_zero, sub_zero]

/-- **C27**, vectors of the same length, any number of iterations: all components of the mean move by the same amount and all entries of
the covariance by the same amount, whatever the measurement. -/
theorem C27_vector_shift (hjac : CorrectJac jac) (hn : 0 < n) {x : Fin n → ℝ} {P R : Matrix (Fin n) (Fin n) ℝ}
    {F : (Fin n → ℝ) → Fin n → ℝ} (hf : VecFunc (fun z => K.measurement z t u) F) (hF : Differentiable ℝ F) (hR : K.R = .m R)
    (hP : P.PosSemidef) (hR' : R.PosDef) {g : Gaussian} (hg : HasMoments env g x P) {y : Arr} {yv : Fin n → ℝ} (hy : IsVec y yv)
    (N : ℕ) : ∃ g' a b, K.iteratedUpdate env jac N g y t u = .ok g' ∧
      HasMoments env g' (fun i => x i + a) (of fun i j => P i j - b) := by
  have key : ∀ (N : ℕ) (a b : ℝ) (g : Gaussian), HasMoments env g (fun i => x i + a) (of fun i j => P i j - b) →
      ∃ g' a b, KFS.iterate (K.iekfStep env jac (.v x) (.m P) y t u) N g = .ok g' ∧
        HasMoments env g' (fun i => x i + a) (of fun i j => P i j - b) := by
    intro N
    induction N with
    | zero => exact fun a b g h => ⟨g, a, b, rfl, h⟩
    | succ N ih =>
      intro a b g h
      rw [KFS.iterate, step_square hjac hn hf (hF _).hasFDerivAt hR hP hR' h hy rfl rfl, ok_bind]
      exact ih _ _ _ (hasMoments_ofMoment _ _ _)
  simp only [KFS.iteratedUpdate, hg.meanA, hg.covA, ok_bind]
  refine key N 0 0 g ?_
  have h1 : (fun i => x i + 0) = x := by simp
  have h2 : (of fun i j => P i j - 0) = P := by ext i j; simp
  rw [h1, h2]
  exact hg

/-- A filter whose measurement function returns the state as a vector, with unit noise. -/
noncomputable def vectorIEKF : KFS :=
  { demoIEKF with measurement := fun x _ _ => affineFunc (1 : Matrix (Fin 2) (Fin 2) ℝ) 0 x }

/-- The state itself measured in the plane with unit noise, prior `N(0, I)`: both components of the mean become `(2 y_0 - y_1) / 3`, and the
covariance gets a negative correlation. The Kalman correction is `y / 2` with covariance `I / 2`. -/
example (y : Fin 2 → ℝ) : ∃ g', vectorIEKF.iteratedUpdate calmEnv exactJac 1
      (Gaussian.ofMoment (.v (0 : Fin 2 → ℝ)) (.m (1 : Matrix (Fin 2) (Fin 2) ℝ))) (.v y) (some 0) none = .ok g' ∧
    HasMoments calmEnv g' ![(2 * y 0 - y 1) / 3, (2 * y 0 - y 1) / 3] !![1 / 3, -2 / 3; -2 / 3, 1 / 3] := by
  obtain ⟨g', h, hm⟩ := C27_vector_square (K := vectorIEKF) (t := some 0) (u := none) (H := ![1, 0]) (G := ![2 / 3, -1 / 3]) exactJac_correct
    two_pos (affineFunc_vec (1 : Matrix (Fin 2) (Fin 2) ℝ) 0) (hasFDerivAt_affine _ _ _) (rfl : vectorIEKF.R = .m (1 : Matrix (Fin 2) (Fin 2) ℝ))
    PosDef.one.posSemidef PosDef.one (hasMoments_ofMoment calmEnv 0 1) (isVec_v y)
    (fun j => by rw [affine_deriv_apply]; fin_cases j <;> simp)
    (by rw [one_mulVec]; ext i; fin_cases i <;> simp [mulVec, dotProduct, Fin.sum_univ_two, Matrix.one_apply] <;> norm_num)
  refine ⟨g', h, ?_⟩
  have h1 : (fun i => (0 : Fin 2 → ℝ) i + ∑ j, ![2 / 3, -1 / 3] j * (y j - ((1 : Matrix (Fin 2) (Fin 2) ℝ) *ᵥ 0 + 0) ⟨0, two_pos⟩)) =
      ![(2 * y 0 - y 1) / 3, (2 * y 0 - y 1) / 3] := by
    ext i
    fin_cases i <;> simp [Fin.sum_univ_two] <;> ring
  have h2 : (of fun i j => (1 : Matrix (Fin 2) (Fin 2) ℝ) i j - ![2 / 3, -1 / 3] ⬝ᵥ (1 : Matrix (Fin 2) (Fin 2) ℝ) *ᵥ ![1, 0]) =
      !![1 / 3, -2 / 3; -2 / 3, 1 / 3] := by
    ext i j
    fin_cases i <;> fin_cases j <;> simp [dotProduct, Fin.sum_univ_two] <;> norm_num
  exact h1 ▸ h2 ▸ hm

end Verif
