import Verif.Spec.Quadratic
import Verif.Lemmas.Expectation
import Verif.Lemmas.LinAlg

/-! Fourth moments of the multivariate normal distribution, and the covariance of quadratic polynomials. -/

namespace Verif

open Matrix MeasureTheory ProbabilityTheory

variable {n : ℕ} {μ : Fin n → ℝ} {P : Matrix (Fin n) (Fin n) ℝ}

private noncomputable abbrev law (μ : Fin n → ℝ) (P : Matrix (Fin n) (Fin n) ℝ) : Measure (EuclideanSpace ℝ (Fin n)) :=
  multivariateGaussian (WithLp.toLp 2 μ) P

theorem memLp_lin (a : Fin n → ℝ) : MemLp (fun x : EuclideanSpace ℝ (Fin n) => a ⬝ᵥ (x.ofLp - μ)) 2 (law μ P) :=
  memLp_finsetSum Finset.univ fun i _ => ((memLp_c1 i).sub (memLp_const (μ i))).const_mul (a i)

theorem memLp_lin2 (a b : Fin n → ℝ) :
    MemLp (fun x : EuclideanSpace ℝ (Fin n) => (a ⬝ᵥ (x.ofLp - μ)) * (b ⬝ᵥ (x.ofLp - μ))) 2 (law μ P) := by
  have h : ∀ i j, MemLp (fun x : EuclideanSpace ℝ (Fin n) => (x.ofLp i - μ i) * (x.ofLp j - μ j)) 2 (law μ P) := fun i j => by
    have := (((memLp_c2 (μ := μ) (P := P) i j).sub ((memLp_c1 i).const_mul (μ j))).sub ((memLp_c1 j).const_mul (μ i))).add (memLp_const (μ i * μ j))
    refine this.ae_eq (.of_forall fun x => ?_)
    simp only [Pi.add_apply, Pi.sub_apply]; ring
  have h2 := memLp_finsetSum Finset.univ fun i (_ : i ∈ Finset.univ) => memLp_finsetSum Finset.univ fun j (_ : j ∈ Finset.univ) => (h i j).const_mul (a i * b j)
  refine h2.ae_eq (.of_forall fun x => ?_)
  simp only [dotProduct, Finset.sum_mul_sum, Pi.sub_apply]
  exact Finset.sum_congr rfl fun i _ => Finset.sum_congr rfl fun j _ => by ring

/-- Second moments of linear forms. -/
theorem expect_lin2 (hP : P.PosSemidef) (a b : Fin n → ℝ) :
    expect μ P (fun x => (a ⬝ᵥ (x - μ)) * (b ⬝ᵥ (x - μ))) = a ⬝ᵥ P *ᵥ b := by
  have e : (fun x : Fin n → ℝ => (a ⬝ᵥ (x - μ)) * (b ⬝ᵥ (x - μ))) = fun x => ∑ i, ∑ j, a i * b j * ((x i - μ i) * (x j - μ j)) := by
    funext x
    simp only [dotProduct, Finset.sum_mul_sum, Pi.sub_apply]
    exact Finset.sum_congr rfl fun i _ => Finset.sum_congr rfl fun j _ => by ring
  rw [e]
  have hi := fun i j => integrable_central2 (μ := μ) (P := P) i j
  have hc : ∀ i j, ∫ x, (x.ofLp i - μ i) * (x.ofLp j - μ j) ∂(law μ P) = P i j := fun i j => expect_central2 hP i j
  unfold expect
  rw [integral_finsetSum _ fun i _ => integrable_finsetSum _ fun j _ => (hi i j).const_mul _]
  simp only [dotProduct, mulVec, Finset.mul_sum]
  refine Finset.sum_congr rfl fun i _ => ?_
  rw [integral_finsetSum _ fun j _ => (hi i j).const_mul _]
  refine Finset.sum_congr rfl fun j _ => ?_
  rw [integral_const_mul, hc]; ring

/-- The fourth moment of a linear form. -/
theorem expect_lin_pow4 (hP : P.PosSemidef) (a : Fin n → ℝ) :
    expect μ P (fun x => (a ⬝ᵥ (x - μ)) ^ 4) = 3 * (a ⬝ᵥ P *ᵥ a) ^ 2 := by
  set L : StrongDual ℝ (EuclideanSpace ℝ (Fin n)) := ∑ i, a i • EuclideanSpace.proj (𝕜 := ℝ) i with hL
  have hLx : ∀ x : EuclideanSpace ℝ (Fin n), L x = a ⬝ᵥ x.ofLp := fun x => by
    simp [hL, dotProduct]
  have hmean : ∫ x, L x ∂(law μ P) = a ⬝ᵥ μ := by
    have h1 := L.integral_comp_comm (IsGaussian.integrable_id (μ := law μ P))
    simp only [id] at h1
    rw [h1, integral_id_multivariateGaussian (μ := WithLp.toLp 2 μ) (S := P), hLx]
  have hvar : Var[L; law μ P] = a ⬝ᵥ P *ᵥ a := by
    rw [variance_eq_integral L.continuous.aemeasurable, hmean, ← expect_lin2 (μ := μ) hP a a]
    unfold expect
    refine integral_congr_ae (.of_forall fun x => ?_)
    simp only [hLx, dotProduct_sub]; ring
  have hnn : 0 ≤ a ⬝ᵥ P *ᵥ a := hvar ▸ variance_nonneg _ _
  have hmap := IsGaussian.map_eq_gaussianReal (μ := law μ P) L
  rw [hmean, hvar] at hmap
  have h1 : ∫ x, (x - a ⬝ᵥ μ) ^ 4 ∂(gaussianReal (a ⬝ᵥ μ) (a ⬝ᵥ P *ᵥ a).toNNReal) = 3 * (a ⬝ᵥ P *ᵥ a) ^ 2 := by
    calc ∫ x, (x - a ⬝ᵥ μ) ^ 4 ∂(gaussianReal (a ⬝ᵥ μ) (a ⬝ᵥ P *ᵥ a).toNNReal)
        = ∫ x, x ^ 4 ∂((gaussianReal (a ⬝ᵥ μ) (a ⬝ᵥ P *ᵥ a).toNNReal).map fun x => x - a ⬝ᵥ μ) := by
          rw [integral_map (by fun_prop) (by fun_prop)]
      _ = ∫ x, x ^ 4 ∂(gaussianReal 0 (a ⬝ᵥ P *ᵥ a).toNNReal) := by simp [gaussianReal_map_sub_const]
      _ = _ := by rw [integral_pow_four, Real.coe_toNNReal _ hnn]
  rw [← h1, ← hmap, integral_map L.continuous.aemeasurable (by fun_prop)]
  unfold expect
  refine integral_congr_ae (.of_forall fun x => ?_)
  simp only [hLx, dotProduct_sub]

/-- Fourth moments of linear forms (Isserlis). -/
theorem expect_lin4 (hP : P.PosSemidef) (a b c d : Fin n → ℝ) :
    expect μ P (fun x => (a ⬝ᵥ (x - μ)) * (b ⬝ᵥ (x - μ)) * ((c ⬝ᵥ (x - μ)) * (d ⬝ᵥ (x - μ)))) =
      (a ⬝ᵥ P *ᵥ b) * (c ⬝ᵥ P *ᵥ d) + (a ⬝ᵥ P *ᵥ c) * (b ⬝ᵥ P *ᵥ d) + (a ⬝ᵥ P *ᵥ d) * (b ⬝ᵥ P *ᵥ c) := by
  have hs : ∀ u v : Fin n → ℝ, u ⬝ᵥ P *ᵥ v = v ⬝ᵥ P *ᵥ u := fun u v => by
    rw [dotProduct_comm, dotProduct_mulVec, ← mulVec_transpose, posSemidef_symm hP]
  have hi : ∀ v : Fin n → ℝ, Integrable (fun x : EuclideanSpace ℝ (Fin n) => (v ⬝ᵥ (x.ofLp - μ)) ^ 4) (law μ P) := fun v => by
    refine (memLp_lin2 (μ := μ) (P := P) v v).integrable_sq.congr (.of_forall fun x => ?_)
    simp only; ring
  have h4 : ∀ v : Fin n → ℝ, ∫ x, (v ⬝ᵥ (x.ofLp - μ)) ^ 4 ∂(law μ P) = 3 * (v ⬝ᵥ P *ᵥ v) ^ 2 := fun v => expect_lin_pow4 hP v
  let v : Fin 8 → Fin n → ℝ := ![a + b + c + d, a - b + c + d, a + b - c + d, a + b + c - d, a - b - c + d, a - b + c - d, a + b - c - d, a - b - c - d]
  let s : Fin 8 → ℝ := ![1 / 192, -1 / 192, -1 / 192, -1 / 192, 1 / 192, 1 / 192, 1 / 192, -1 / 192]
  have e : (fun x : EuclideanSpace ℝ (Fin n) => (a ⬝ᵥ (x.ofLp - μ)) * (b ⬝ᵥ (x.ofLp - μ)) * ((c ⬝ᵥ (x.ofLp - μ)) * (d ⬝ᵥ (x.ofLp - μ)))) =
      fun x => ∑ k, s k * (v k ⬝ᵥ (x.ofLp - μ)) ^ 4 := by
    funext x
    simp only [Fin.sum_univ_eight, s, v, cons_val, add_dotProduct, sub_dotProduct]
    ring
  unfold expect
  rw [e, integral_finsetSum _ fun k _ => (hi (v k)).const_mul (s k)]
  simp only [integral_const_mul, h4]
  simp only [Fin.sum_univ_eight, s, v, cons_val]
  simp only [add_dotProduct, sub_dotProduct, mulVec_add, mulVec_sub, dotProduct_add, dotProduct_sub]
  rw [hs b a, hs c a, hs d a, hs c b, hs d b, hs d c]
  ring

/-! ## Quadratic forms -/

private theorem quad_sum (A : Matrix (Fin n) (Fin n) ℝ) (d : Fin n → ℝ) :
    d ⬝ᵥ A *ᵥ d = ∑ p : Fin n × Fin n, A p.1 p.2 * ((Pi.single p.1 1 ⬝ᵥ d) * (Pi.single p.2 1 ⬝ᵥ d)) := by
  rw [Fintype.sum_prod_type]
  simp only [dotProduct, mulVec, Finset.mul_sum, Pi.single_apply, ite_mul, one_mul, zero_mul, Finset.sum_ite_eq', Finset.mem_univ, if_true]
  exact Finset.sum_congr rfl fun i _ => Finset.sum_congr rfl fun j _ => by ring

theorem memLp_quad (A : Matrix (Fin n) (Fin n) ℝ) :
    MemLp (fun x : EuclideanSpace ℝ (Fin n) => (x.ofLp - μ) ⬝ᵥ A *ᵥ (x.ofLp - μ)) 2 (law μ P) := by
  simp only [quad_sum]
  exact memLp_finsetSum Finset.univ fun p _ => (memLp_lin2 _ _).const_mul _

/-- The mean of a quadratic form. -/
theorem expect_quad (hP : P.PosSemidef) (A : Matrix (Fin n) (Fin n) ℝ) :
    expect μ P (fun x => (x - μ) ⬝ᵥ A *ᵥ (x - μ)) = (A * P).trace := by
  have hi := fun p : Fin n × Fin n => ((memLp_lin2 (μ := μ) (P := P) (Pi.single p.1 1) (Pi.single p.2 1)).integrable (by norm_num)).const_mul (A p.1 p.2)
  have h2 : ∀ a b : Fin n → ℝ, ∫ x, (a ⬝ᵥ (x.ofLp - μ)) * (b ⬝ᵥ (x.ofLp - μ)) ∂(law μ P) = a ⬝ᵥ P *ᵥ b := fun a b => expect_lin2 hP a b
  simp only [quad_sum]
  unfold expect
  rw [integral_finsetSum _ fun p _ => hi p, Fintype.sum_prod_type]
  simp only [trace, diag_apply, Matrix.mul_apply]
  refine Finset.sum_congr rfl fun i _ => Finset.sum_congr rfl fun j _ => ?_
  rw [integral_const_mul, h2, single_one_dotProduct, mulVec_single_one]
  rw [← congrFun (congrFun (posSemidef_symm hP) j) i]; rfl

/-- The mean of the product of two quadratic forms. -/
theorem expect_quad2 (hP : P.PosSemidef) (A B : Matrix (Fin n) (Fin n) ℝ) :
    expect μ P (fun x => ((x - μ) ⬝ᵥ A *ᵥ (x - μ)) * ((x - μ) ⬝ᵥ B *ᵥ (x - μ))) =
      (A * P).trace * (B * P).trace + (A * P * Bᵀ * P).trace + (A * P * B * P).trace := by
  have hi : ∀ p r : Fin n × Fin n, Integrable (fun x : EuclideanSpace ℝ (Fin n) => A p.1 p.2 * B r.1 r.2 * ((Pi.single p.1 1 ⬝ᵥ (x.ofLp - μ)) *
      (Pi.single p.2 1 ⬝ᵥ (x.ofLp - μ)) * ((Pi.single r.1 1 ⬝ᵥ (x.ofLp - μ)) * (Pi.single r.2 1 ⬝ᵥ (x.ofLp - μ))))) (law μ P) := fun p r =>
    ((memLp_lin2 (μ := μ) (P := P) (Pi.single p.1 1) (Pi.single p.2 1)).integrable_mul
    (memLp_lin2 (μ := μ) (P := P) (Pi.single r.1 1) (Pi.single r.2 1))).const_mul (A p.1 p.2 * B r.1 r.2)
  have h4 : ∀ a b c d : Fin n → ℝ, ∫ x, (a ⬝ᵥ (x.ofLp - μ)) * (b ⬝ᵥ (x.ofLp - μ)) * ((c ⬝ᵥ (x.ofLp - μ)) * (d ⬝ᵥ (x.ofLp - μ))) ∂(law μ P) = _ :=
    fun a b c d => expect_lin4 hP a b c d
  have e : (fun x : Fin n → ℝ => ((x - μ) ⬝ᵥ A *ᵥ (x - μ)) * ((x - μ) ⬝ᵥ B *ᵥ (x - μ))) = fun x => ∑ p : Fin n × Fin n, ∑ r : Fin n × Fin n,
      A p.1 p.2 * B r.1 r.2 * ((Pi.single p.1 1 ⬝ᵥ (x - μ)) * (Pi.single p.2 1 ⬝ᵥ (x - μ)) * ((Pi.single r.1 1 ⬝ᵥ (x - μ)) * (Pi.single r.2 1 ⬝ᵥ (x - μ)))) := by
    funext x
    rw [quad_sum, quad_sum, Finset.sum_mul_sum]
    exact Finset.sum_congr rfl fun i _ => Finset.sum_congr rfl fun j _ => by ring
  have hs : ∀ i j, P i j = P j i := fun i j => by rw [← congrFun (congrFun (posSemidef_symm hP) i) j]; rfl
  rw [e]
  unfold expect
  simp only []
  rw [integral_finsetSum _ fun p _ => integrable_finsetSum _ fun r _ => hi p r]
  have e1 : ∀ p : Fin n × Fin n, ∫ x, ∑ r : Fin n × Fin n, A p.1 p.2 * B r.1 r.2 * ((Pi.single p.1 1 ⬝ᵥ (x.ofLp - μ)) * (Pi.single p.2 1 ⬝ᵥ (x.ofLp - μ)) *
      ((Pi.single r.1 1 ⬝ᵥ (x.ofLp - μ)) * (Pi.single r.2 1 ⬝ᵥ (x.ofLp - μ)))) ∂(law μ P) =
      ∑ r : Fin n × Fin n, A p.1 p.2 * B r.1 r.2 * (P p.1 p.2 * P r.1 r.2 + P p.1 r.1 * P p.2 r.2 + P p.1 r.2 * P p.2 r.1) := fun p => by
    rw [integral_finsetSum _ fun r _ => hi p r]
    refine Finset.sum_congr rfl fun r _ => ?_
    rw [integral_const_mul, h4]
    simp only [single_one_dotProduct, mulVec_single_one]
    rfl
  simp only [e1, mul_add, Finset.sum_add_distrib]
  congr 1
  · congr 1
    · simp only [trace, diag_apply, Matrix.mul_apply]
      simp only [← Fintype.sum_prod_type' (f := fun i j => A i j * P j i), ← Fintype.sum_prod_type' (f := fun i j => B i j * P j i)]
      rw [Finset.sum_mul_sum]
      refine Finset.sum_congr rfl fun p _ => Finset.sum_congr rfl fun r _ => ?_
      rw [hs p.1 p.2, hs r.1 r.2]; ring
    · simp only [trace, diag_apply, Matrix.mul_apply, Finset.sum_mul, Fintype.sum_prod_type, transpose_apply]
      refine Finset.sum_congr rfl fun i _ => ?_
      rw [Finset.sum_comm]
      refine Finset.sum_congr rfl fun k _ => ?_
      rw [Finset.sum_comm]
      refine Finset.sum_congr rfl fun l _ => Finset.sum_congr rfl fun j _ => ?_
      rw [hs i k]; ring
  · simp only [trace, diag_apply, Matrix.mul_apply, Finset.sum_mul, Fintype.sum_prod_type]
    refine Finset.sum_congr rfl fun i _ => ?_
    rw [Finset.sum_comm]
    conv_rhs => rw [Finset.sum_comm]
    refine Finset.sum_congr rfl fun k _ => ?_
    rw [Finset.sum_comm]
    refine Finset.sum_congr rfl fun l _ => Finset.sum_congr rfl fun j _ => ?_
    rw [hs i l]; ring

/-- Linear and quadratic forms are uncorrelated. -/
theorem expect_lin_quad (a : Fin n → ℝ) (A : Matrix (Fin n) (Fin n) ℝ) :
    expect μ P (fun x => (a ⬝ᵥ (x - μ)) * ((x - μ) ⬝ᵥ A *ᵥ (x - μ))) = 0 := by
  have h := expect_reflect (μ := μ) (P := P) (f := fun x => (a ⬝ᵥ (x - μ)) * ((x - μ) ⬝ᵥ A *ᵥ (x - μ)))
    (by simp only [dotProduct, mulVec]; fun_prop)
  have e : (fun x : Fin n → ℝ => (a ⬝ᵥ (μ + μ - x - μ)) * ((μ + μ - x - μ) ⬝ᵥ A *ᵥ (μ + μ - x - μ))) =
      fun x => -((a ⬝ᵥ (x - μ)) * ((x - μ) ⬝ᵥ A *ᵥ (x - μ))) := by
    funext x
    rw [show μ + μ - x - μ = -(x - μ) by abel]
    simp only [dotProduct_neg, neg_dotProduct, mulVec_neg]; ring
  simp only [e] at h
  have h2 : expect μ P (fun x => -((a ⬝ᵥ (x - μ)) * ((x - μ) ⬝ᵥ A *ᵥ (x - μ)))) =
      -expect μ P (fun x => (a ⬝ᵥ (x - μ)) * ((x - μ) ⬝ᵥ A *ᵥ (x - μ))) := integral_neg _
  linarith

/-- The mean of a quadratic polynomial. -/
theorem Cubic.expect_quadratic (q : Cubic n) (hq : q.Quadratic) (hP : P.PosSemidef) :
    expect μ P q.eval = q.eval μ + 1 / 2 * (q.hess * P).trace := by
  rw [q.expect_eval hP]
  congr 1
  simp only [Cubic.curv, hq _ _ _, zero_mul, Finset.sum_const_zero, add_zero, trace, diag_apply, Matrix.mul_apply, Cubic.hess, of_apply]
  have hs : ∀ i j, P i j = P j i := fun i j => by rw [← congrFun (congrFun (posSemidef_symm hP) i) j]; rfl
  have : ∑ i, ∑ j, (q.M i j + q.M j i) * P j i = ∑ i, ∑ j, q.M i j * P i j + ∑ i, ∑ j, q.M j i * P j i := by
    simp only [← Finset.sum_add_distrib]
    exact Finset.sum_congr rfl fun i _ => Finset.sum_congr rfl fun j _ => by rw [hs i j]; ring
  rw [this, Finset.sum_comm (f := fun i j => q.M j i * P j i)]; ring

/-- The covariance of two quadratic polynomials. -/
theorem Cubic.expect_covariance (q r : Cubic n) (hq : q.Quadratic) (hr : r.Quadratic) (hP : P.PosSemidef) :
    expect μ P (fun x => (q.eval x - expect μ P q.eval) * (r.eval x - expect μ P r.eval)) =
      q.grad μ ⬝ᵥ P *ᵥ r.grad μ + 1 / 2 * (q.hess * P * r.hess * P).trace := by
  have dev : ∀ (q : Cubic n), q.Quadratic → ∀ x, q.eval x - expect μ P q.eval =
      q.grad μ ⬝ᵥ (x - μ) + (1 / 2 * ((x - μ) ⬝ᵥ q.hess *ᵥ (x - μ)) + -(1 / 2 * (q.hess * P).trace)) := fun q hq x => by
    have := q.taylor hq μ (x - μ)
    rw [show μ + (x - μ) = x by abel] at this
    rw [q.expect_quadratic hq hP, this]; ring
  simp only [dev q hq, dev r hr]
  set a := q.grad μ
  set b := r.grad μ
  set A := q.hess
  set B := r.hess with hB
  set T := (A * P).trace
  set U := (B * P).trace
  have i11 := (memLp_lin (μ := μ) (P := P) a).integrable_mul (memLp_lin (μ := μ) (P := P) b)
  have i12 := ((memLp_lin (μ := μ) (P := P) a).integrable_mul (memLp_quad (μ := μ) (P := P) B)).const_mul (1 / 2)
  have i21 := ((memLp_lin (μ := μ) (P := P) b).integrable_mul (memLp_quad (μ := μ) (P := P) A)).const_mul (1 / 2)
  have i22 := ((memLp_quad (μ := μ) (P := P) A).integrable_mul (memLp_quad (μ := μ) (P := P) B)).const_mul (1 / 4)
  have ia := (memLp_lin (μ := μ) (P := P) a).integrable (by norm_num) |>.const_mul (-(1 / 2 * U))
  have ib := (memLp_lin (μ := μ) (P := P) b).integrable (by norm_num) |>.const_mul (-(1 / 2 * T))
  have iA := (memLp_quad (μ := μ) (P := P) A).integrable (by norm_num) |>.const_mul (-(1 / 4 * U))
  have iB := (memLp_quad (μ := μ) (P := P) B).integrable (by norm_num) |>.const_mul (-(1 / 4 * T))
  have ic := integrable_const (μ := law μ P) (1 / 4 * (T * U))
  have h1 : ∀ c : Fin n → ℝ, ∫ x, c ⬝ᵥ (x.ofLp - μ) ∂(law μ P) = 0 := fun c => by
    have h := expect_reflect (μ := μ) (P := P) (f := fun x => c ⬝ᵥ (x - μ)) (by simp only [dotProduct]; fun_prop)
    have e : (fun x : Fin n → ℝ => c ⬝ᵥ (μ + μ - x - μ)) = fun x => -(c ⬝ᵥ (x - μ)) := by
      funext x
      rw [show μ + μ - x - μ = -(x - μ) by abel, dotProduct_neg]
    simp only [e] at h
    have h2 : expect μ P (fun x => -(c ⬝ᵥ (x - μ))) = -expect μ P (fun x => c ⬝ᵥ (x - μ)) := integral_neg _
    have h3 : expect μ P (fun x => c ⬝ᵥ (x - μ)) = 0 := by linarith
    exact h3
  have h11 : ∫ x, (a ⬝ᵥ (x.ofLp - μ)) * (b ⬝ᵥ (x.ofLp - μ)) ∂(law μ P) = a ⬝ᵥ P *ᵥ b := expect_lin2 hP a b
  have h12 : ∀ (c : Fin n → ℝ) (C : Matrix (Fin n) (Fin n) ℝ), ∫ x, (c ⬝ᵥ (x.ofLp - μ)) * ((x.ofLp - μ) ⬝ᵥ C *ᵥ (x.ofLp - μ)) ∂(law μ P) = 0 :=
    fun c C => expect_lin_quad c C
  have h22 : ∫ x, ((x.ofLp - μ) ⬝ᵥ A *ᵥ (x.ofLp - μ)) * ((x.ofLp - μ) ⬝ᵥ B *ᵥ (x.ofLp - μ)) ∂(law μ P) =
      T * U + (A * P * Bᵀ * P).trace + (A * P * B * P).trace := expect_quad2 hP A B
  have h2 : ∀ C : Matrix (Fin n) (Fin n) ℝ, ∫ x, ((x.ofLp - μ) ⬝ᵥ C *ᵥ (x.ofLp - μ)) ∂(law μ P) = (C * P).trace := fun C => expect_quad hP C
  have s2 := i11.add i12
  have s3 := s2.add i21
  have s4 := s3.add i22
  have s5 := s4.add ia
  have s6 := s5.add ib
  have s7 := s6.add iA
  have s8 := s7.add iB
  have hsum := integral_add' s8 ic
  rw [integral_add' s7 iB, integral_add' s6 iA, integral_add' s5 ib, integral_add' s4 ia, integral_add' s3 i22, integral_add' s2 i21,
    integral_add' i11 i12] at hsum
  simp only [Pi.mul_apply, integral_const_mul, h11, h12, h22, h1, h2, integral_const, probReal_univ, one_smul] at hsum
  have e : (expect μ P fun x => (a ⬝ᵥ (x - μ) + (1 / 2 * ((x - μ) ⬝ᵥ A *ᵥ (x - μ)) + -(1 / 2 * T))) *
      (b ⬝ᵥ (x - μ) + (1 / 2 * ((x - μ) ⬝ᵥ B *ᵥ (x - μ)) + -(1 / 2 * U)))) = _ := (integral_congr_ae (.of_forall fun x => by
    simp only [Pi.add_apply, Pi.mul_apply]; ring)).trans hsum
  rw [e, show Bᵀ = B from r.hess_symm]
  ring

end Verif
