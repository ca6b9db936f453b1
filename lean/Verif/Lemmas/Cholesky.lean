import Mathlib.Analysis.Matrix.PosDef
import Mathlib.Analysis.Real.Sqrt
import Mathlib.Algebra.Order.Star.Real
import Mathlib.Algebra.BigOperators.Fin

/-! Existence and uniqueness of the upper Cholesky factor of a positive definite real matrix. -/

namespace Verif

open Matrix

/-- The contract of an upper Cholesky factor: upper triangular, positive diagonal, `RᵀR = A`. -/
structure IsUpperChol {n : ℕ} (A R : Matrix (Fin n) (Fin n) ℝ) : Prop where
  upper : ∀ i j, j < i → R i j = 0
  diag_pos : ∀ i, 0 < R i i
  mul_eq : Rᵀ * R = A

/-- For real matrices positive definiteness is symmetry and positivity of the quadratic form. -/
theorem posDef_iff_real {n : Type*} [Fintype n] {A : Matrix n n ℝ} :
    A.PosDef ↔ Aᵀ = A ∧ ∀ x : n → ℝ, x ≠ 0 → 0 < x ⬝ᵥ (A *ᵥ x) := by
  rw [posDef_iff_dotProduct_mulVec]
  simp [IsHermitian, conjTranspose_eq_transpose_of_trivial]

theorem posSemidef_iff_real {n : Type*} [Fintype n] {A : Matrix n n ℝ} :
    A.PosSemidef ↔ Aᵀ = A ∧ ∀ x : n → ℝ, 0 ≤ x ⬝ᵥ (A *ᵥ x) := by
  rw [posSemidef_iff_dotProduct_mulVec]
  simp [IsHermitian, conjTranspose_eq_transpose_of_trivial]

theorem exists_upperChol : ∀ {n : ℕ} {A : Matrix (Fin n) (Fin n) ℝ}, A.PosDef → ∃ R, IsUpperChol A R
  | 0, A, _ => ⟨0, ⟨fun i => i.elim0, fun i => i.elim0, by ext i; exact i.elim0⟩⟩
  | n + 1, A, hA => by
    have hp := posDef_iff_real.1 hA
    have ha : 0 < A 0 0 := hA.diag_pos
    have hsym : ∀ i j, A i j = A j i := fun i j => congrFun (congrFun hp.1 j) i
    set C : Matrix (Fin n) (Fin n) ℝ := fun i j => A i.succ j.succ - A 0 i.succ * A 0 j.succ / A 0 0 with hC
    have hCpd : C.PosDef := by
      rw [posDef_iff_real]
      refine ⟨by ext i j; rw [transpose_apply]; simp only [hC]; rw [hsym]; ring, fun x hx => ?_⟩
      let y : Fin (n + 1) → ℝ := Fin.cons (-(∑ j, A 0 j.succ * x j) / A 0 0) x
      have hy : y ≠ 0 := fun h => hx (by
        funext i; have := congrFun h i.succ; simpa [y] using this)
      have h1 := hp.2 y hy
      have h2 : y ⬝ᵥ (A *ᵥ y) = x ⬝ᵥ (C *ᵥ x) := by
        simp only [dotProduct, mulVec, Fin.sum_univ_succ, y, Fin.cons_zero, Fin.cons_succ, hC, sub_mul,
          Finset.sum_sub_distrib]
        simp only [mul_sub, mul_add, Finset.sum_add_distrib, Finset.sum_sub_distrib]
        have e1 : ∀ i : Fin n, x i * (A i.succ 0 * (-(∑ j, A 0 j.succ * x j) / A 0 0)) =
            (A 0 i.succ * x i) * (-(∑ j, A 0 j.succ * x j) / A 0 0) := by
          intro i; rw [hsym i.succ 0]; ring
        have e2 : ∀ i : Fin n, x i * ∑ j, A 0 i.succ * A 0 j.succ / A 0 0 * x j =
            (A 0 i.succ * x i) * ((∑ j, A 0 j.succ * x j) / A 0 0) := by
          intro i
          rw [Finset.sum_div, Finset.mul_sum, Finset.mul_sum]
          refine Finset.sum_congr rfl fun j _ => by ring
        simp only [e1, e2, ← Finset.sum_mul]
        field_simp
        ring
      rw [← h2]; exact h1
    obtain ⟨R, hR⟩ := exists_upperChol hCpd
    have hs : 0 < Real.sqrt (A 0 0) := Real.sqrt_pos.2 ha
    have hss : Real.sqrt (A 0 0) * Real.sqrt (A 0 0) = A 0 0 := Real.mul_self_sqrt ha.le
    let Q : Matrix (Fin (n + 1)) (Fin (n + 1)) ℝ :=
      Matrix.of (Fin.cons (fun j => A 0 j / Real.sqrt (A 0 0)) fun i => Fin.cons 0 (R i))
    have Q0 : ∀ j, Q 0 j = A 0 j / Real.sqrt (A 0 0) := fun j => rfl
    have Q1 : ∀ i, Q (Fin.succ i) 0 = 0 := fun i => rfl
    have Q2 : ∀ i j, Q (Fin.succ i) (Fin.succ j) = R i j := fun i j => rfl
    have hRR : ∀ i j, ∑ k, R k i * R k j = C i j := fun i j => by
      have := congrFun (congrFun hR.mul_eq i) j
      simpa [Matrix.mul_apply] using this
    have hdiv : ∀ a b : ℝ, a / Real.sqrt (A 0 0) * (b / Real.sqrt (A 0 0)) = a * b / A 0 0 := fun a b => by
      rw [div_mul_div_comm, hss]
    refine ⟨Q, ⟨?_, ?_, ?_⟩⟩
    · intro i j
      refine Fin.cases (fun h => absurd h (Fin.not_lt_zero _)) (fun i => ?_) i
      refine Fin.cases (fun _ => Q1 i) (fun j h => ?_) j
      rw [Q2]; exact hR.upper i j (Fin.succ_lt_succ_iff.1 h)
    · intro i
      refine Fin.cases ?_ (fun i => ?_) i
      · rw [Q0]; exact div_pos ha hs
      · rw [Q2]; exact hR.diag_pos i
    · ext i j
      rw [Matrix.mul_apply, Fin.sum_univ_succ]
      simp only [transpose_apply]
      refine Fin.cases ?_ (fun i => ?_) i
      · simp only [Q0, Q1, zero_mul, Finset.sum_const_zero, add_zero, hdiv]
        field_simp
      · refine Fin.cases ?_ (fun j => ?_) j
        · simp only [Q0, Q1, mul_zero, Finset.sum_const_zero, add_zero, hdiv]
          rw [hsym i.succ 0]; field_simp
        · simp only [Q0, Q2, hdiv, hRR, hC]; ring

theorem upperChol_unique : ∀ {n : ℕ} {A R S : Matrix (Fin n) (Fin n) ℝ},
    IsUpperChol A R → IsUpperChol A S → R = S
  | 0, _, _, _, _, _ => by ext i; exact i.elim0
  | n + 1, A, R, S, hR, hS => by
    have r0 : ∀ i : Fin n, R i.succ 0 = 0 := fun i => hR.upper _ _ (Fin.succ_pos i)
    have s0 : ∀ i : Fin n, S i.succ 0 = 0 := fun i => hS.upper _ _ (Fin.succ_pos i)
    have e : ∀ i j, R 0 i * R 0 j + ∑ k : Fin n, R k.succ i * R k.succ j =
        S 0 i * S 0 j + ∑ k : Fin n, S k.succ i * S k.succ j := fun i j => by
      have h := congrFun (congrFun (hR.mul_eq.trans hS.mul_eq.symm) i) j
      simpa only [Matrix.mul_apply, Fin.sum_univ_succ, transpose_apply] using h
    have h00 : R 0 0 = S 0 0 := by
      have h := e 0 0
      simp only [r0, s0, zero_mul, Finset.sum_const_zero, add_zero] at h
      exact (mul_self_inj (hR.diag_pos 0).le (hS.diag_pos 0).le).1 h
    have h0 : ∀ j, R 0 j = S 0 j := fun j => by
      have h := e 0 j
      simp only [r0, s0, zero_mul, Finset.sum_const_zero, add_zero] at h
      rw [h00] at h
      exact mul_left_cancel₀ (hS.diag_pos 0).ne' h
    let R' : Matrix (Fin n) (Fin n) ℝ := fun i j => R i.succ j.succ
    let S' : Matrix (Fin n) (Fin n) ℝ := fun i j => S i.succ j.succ
    have h' : R' = S' := by
      refine upperChol_unique (A := R'ᵀ * R') ⟨fun i j h => hR.upper _ _ (Fin.succ_lt_succ_iff.2 h),
        fun i => hR.diag_pos _, rfl⟩ ⟨fun i j h => hS.upper _ _ (Fin.succ_lt_succ_iff.2 h),
        fun i => hS.diag_pos _, ?_⟩
      ext i j
      have h := e i.succ j.succ
      rw [h0, h0] at h
      rw [Matrix.mul_apply, Matrix.mul_apply]
      exact (add_left_cancel h).symm
    ext i j
    refine Fin.cases (h0 j) (fun i => ?_) i
    refine Fin.cases ?_ (fun j => ?_) j
    · rw [r0, s0]
    · exact congrFun (congrFun h' i) j

/-- A matrix with an upper Cholesky factor is positive definite. -/
theorem IsUpperChol.posDef {n : ℕ} {A R : Matrix (Fin n) (Fin n) ℝ} (h : IsUpperChol A R) : A.PosDef := by
  have hdet : R.det ≠ 0 := by
    rw [det_of_isUpperTriangular (fun i j hij => h.upper i j hij)]
    exact Finset.prod_ne_zero_iff.2 fun i _ => (h.diag_pos i).ne'
  have hinj : Function.Injective R.mulVec := mulVec_injective_of_isUnit ((isUnit_iff_isUnit_det _).2 hdet.isUnit)
  rw [← h.mul_eq, ← conjTranspose_eq_transpose_of_trivial]
  exact Matrix.PosDef.conjTranspose_mul_self _ hinj

end Verif
