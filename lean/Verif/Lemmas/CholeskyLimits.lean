import Verif.Lemmas.MatrixLimits
import Mathlib.Analysis.SpecialFunctions.Pow.Real

/-! The Cholesky factor and the inverse of matrices that depend continuously on a parameter. -/

namespace Verif

open Matrix

variable {Θ : Type*} [TopologicalSpace Θ] {n : ℕ}

private theorem chol_entry {C R : Matrix (Fin n) (Fin n) ℝ} (h : IsUpperChol C R) (i j : Fin n) :
    R i i * R i j = C i j - ∑ a ∈ Finset.univ.filter (· < i), R a i * R a j := by
  have e : C i j = ∑ a, R a i * R a j := by
    rw [← h.mul_eq, Matrix.mul_apply]
    exact Finset.sum_congr rfl fun a _ => by rw [transpose_apply]
  have e2 := Finset.sum_filter_add_sum_filter_not Finset.univ (fun a : Fin n => a < i) fun a => R a i * R a j
  rw [e, ← e2, add_sub_cancel_left]
  have e3 := Finset.sum_eq_single (s := Finset.univ.filter fun a : Fin n => ¬ a < i) (f := fun a => R a i * R a j) i
    (fun a ha hai => by
      have : i < a := lt_of_le_of_ne (not_lt.1 (Finset.mem_filter.1 ha).2) (Ne.symm hai)
      rw [h.upper a i this, zero_mul])
    (fun hi => absurd (Finset.mem_filter.2 ⟨Finset.mem_univ i, lt_irrefl i⟩) hi)
  exact e3.symm

/-- The Cholesky factor depends continuously on the matrix. -/
theorem chol_continuous {C R : Θ → Matrix (Fin n) (Fin n) ℝ} (h : ∀ θ, IsUpperChol (C θ) (R θ)) (hC : Continuous C) : Continuous R := by
  have key : ∀ i j, Continuous fun θ => R θ i j := by
    intro i
    induction i using WellFoundedLT.induction with
    | ind i ih =>
      have hs : ∀ j, Continuous fun θ => C θ i j - ∑ a ∈ Finset.univ.filter (· < i), R θ a i * R θ a j := fun j =>
        (hC.matrix_elem i j).sub (continuous_finsetSum _ fun a ha =>
          (ih a (Finset.mem_filter.1 ha).2 i).mul (ih a (Finset.mem_filter.1 ha).2 j))
      have hd : Continuous fun θ => R θ i i := by
        refine (Real.continuous_sqrt.comp (hs i)).congr fun θ => ?_
        rw [Function.comp_apply, ← chol_entry (h θ), Real.sqrt_mul_self ((h θ).diag_pos i).le]
      intro j
      refine ((hs j).div hd fun θ => ((h θ).diag_pos i).ne').congr fun θ => ?_
      rw [Pi.div_apply, ← chol_entry (h θ), mul_div_cancel_left₀ _ ((h θ).diag_pos i).ne']
  exact continuous_matrix key

theorem inv_continuous {M : Θ → Matrix (Fin n) (Fin n) ℝ} (h : Continuous M) (hd : ∀ θ, (M θ).det ≠ 0) : Continuous fun θ => (M θ)⁻¹ := by
  refine continuous_iff_continuousAt.2 fun θ => ?_
  have hc : ContinuousAt Ring.inverse (M θ).det := by
    have : (Ring.inverse : ℝ → ℝ) = Inv.inv := funext fun x => Ring.inverse_eq_inv x
    rw [this]; exact continuousAt_inv₀ (hd θ)
  exact ContinuousAt.comp (continuousAt_matrix_inv (M θ) hc) h.continuousAt

end Verif
