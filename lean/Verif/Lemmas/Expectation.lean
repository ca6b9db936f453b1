import Verif.Spec.Expectation
import Mathlib.Probability.Distributions.Gaussian.Fernique
import Mathlib.Probability.Moments.MGFAnalytic

/-! Moments of the normal distribution. -/

namespace Verif

open Matrix MeasureTheory ProbabilityTheory

variable {n : ℕ} {μ : Fin n → ℝ} {P : Matrix (Fin n) (Fin n) ℝ}

/-- The normal distribution. -/
private noncomputable abbrev law (μ : Fin n → ℝ) (P : Matrix (Fin n) (Fin n) ℝ) : Measure (EuclideanSpace ℝ (Fin n)) :=
  multivariateGaussian (WithLp.toLp 2 μ) P

theorem integrable_norm_pow (k : ℕ) : Integrable (fun x : EuclideanSpace ℝ (Fin n) => ‖x‖ ^ k) (law μ P) := by
  rcases Nat.eq_zero_or_pos k with rfl | hk
  · simp
  · have := (IsGaussian.memLp_id (law μ P) k (by simp)).integrable_norm_pow (by omega)
    simpa using this

theorem abs_coord_le (x : EuclideanSpace ℝ (Fin n)) (i : Fin n) : |x.ofLp i| ≤ ‖x‖ := by
  simpa using PiLp.norm_apply_le x i

theorem integrable_c1 (i : Fin n) : Integrable (fun x : EuclideanSpace ℝ (Fin n) => x.ofLp i) (law μ P) :=
  (integrable_norm_pow 1).mono' (by fun_prop) (.of_forall fun x => by
    rw [Real.norm_eq_abs, pow_one]; exact abs_coord_le x i)

theorem integrable_c2 (i j : Fin n) : Integrable (fun x : EuclideanSpace ℝ (Fin n) => x.ofLp i * x.ofLp j) (law μ P) :=
  (integrable_norm_pow 2).mono' (by fun_prop) (.of_forall fun x => by
    rw [Real.norm_eq_abs, abs_mul, sq]
    exact mul_le_mul (abs_coord_le x i) (abs_coord_le x j) (abs_nonneg _) (norm_nonneg _))

theorem integrable_c3 (i j l : Fin n) :
    Integrable (fun x : EuclideanSpace ℝ (Fin n) => x.ofLp i * x.ofLp j * x.ofLp l) (law μ P) :=
  (integrable_norm_pow 3).mono' (by fun_prop) (.of_forall fun x => by
    rw [Real.norm_eq_abs, abs_mul, abs_mul, pow_succ, sq]
    exact mul_le_mul (mul_le_mul (abs_coord_le x i) (abs_coord_le x j) (abs_nonneg _) (norm_nonneg _)) (abs_coord_le x l)
      (abs_nonneg _) (by positivity))

/-- The distribution is symmetric about its mean. -/
theorem law_reflect : MeasurePreserving (fun x : EuclideanSpace ℝ (Fin n) => (WithLp.toLp 2 μ + WithLp.toLp 2 μ) - x) (law μ P) (law μ P) where
  measurable := by fun_prop
  map_eq := by
    have h := stdGaussian_map (E := EuclideanSpace ℝ (Fin n)) (LinearIsometryEquiv.neg ℝ)
    unfold law multivariateGaussian
    rw [Measure.map_map (by fun_prop) (by fun_prop)]
    conv_rhs => rw [← h, Measure.map_map (by fun_prop) (by fun_prop)]
    congr 1
    funext x
    simp only [Function.comp, LinearIsometryEquiv.coe_neg, map_neg]
    abel

theorem expect_reflect {f : (Fin n → ℝ) → ℝ} (hf : Continuous f) : expect μ P f = expect μ P fun x => f (μ + μ - x) := by
  unfold expect
  have h := law_reflect (μ := μ) (P := P)
  have := integral_map (μ := law μ P) h.measurable.aemeasurable (f := fun x : EuclideanSpace ℝ (Fin n) => f x.ofLp)
    (Continuous.aestronglyMeasurable (by fun_prop))
  rw [h.map_eq] at this
  rw [this]
  rfl

theorem expect_coord (i : Fin n) : expect μ P (fun x => x i) = μ i := by
  unfold expect
  have h := integral_id_multivariateGaussian (μ := WithLp.toLp 2 μ) (S := P)
  have h2 := (EuclideanSpace.proj (𝕜 := ℝ) i).integral_comp_comm (IsGaussian.integrable_id (μ := law μ P))
  simp only [id] at h2
  rw [h] at h2
  exact h2

theorem expect_central2 (hP : P.PosSemidef) (i j : Fin n) : expect μ P (fun x => (x i - μ i) * (x j - μ j)) = P i j := by
  rw [← covariance_eval_multivariateGaussian (μ := WithLp.toLp 2 μ) hP i j, covariance]
  have h := fun i => expect_coord (μ := μ) (P := P) i
  unfold expect at h
  simp only [h]
  rfl

/-! ## Polynomials -/

theorem memLp_mono {f : EuclideanSpace ℝ (Fin n) → ℝ} (hf : Continuous f) {k : ℕ} (h : ∀ x, |f x| ≤ ‖x‖ ^ k) :
    MemLp f 2 (law μ P) := by
  rw [memLp_two_iff_integrable_sq hf.aestronglyMeasurable]
  refine (integrable_norm_pow (2 * k)).mono' (by fun_prop) (.of_forall fun x => ?_)
  rw [Real.norm_eq_abs, abs_pow, mul_comm, pow_mul]
  exact pow_le_pow_left₀ (abs_nonneg _) (h x) 2

theorem memLp_c1 (i : Fin n) : MemLp (fun x : EuclideanSpace ℝ (Fin n) => x.ofLp i) 2 (law μ P) :=
  memLp_mono (by fun_prop) (k := 1) fun x => by rw [pow_one]; exact abs_coord_le x i

theorem memLp_c2 (i j : Fin n) : MemLp (fun x : EuclideanSpace ℝ (Fin n) => x.ofLp i * x.ofLp j) 2 (law μ P) :=
  memLp_mono (by fun_prop) (k := 2) fun x => by
    rw [abs_mul, sq]
    exact mul_le_mul (abs_coord_le x i) (abs_coord_le x j) (abs_nonneg _) (norm_nonneg _)

theorem memLp_c3 (i j l : Fin n) : MemLp (fun x : EuclideanSpace ℝ (Fin n) => x.ofLp i * x.ofLp j * x.ofLp l) 2 (law μ P) :=
  memLp_mono (by fun_prop) (k := 3) fun x => by
    rw [abs_mul, abs_mul, pow_succ, sq]
    exact mul_le_mul (mul_le_mul (abs_coord_le x i) (abs_coord_le x j) (abs_nonneg _) (norm_nonneg _)) (abs_coord_le x l)
      (abs_nonneg _) (by positivity)

namespace Cubic

variable (q : Cubic n)

theorem continuous_eval : Continuous q.eval := by unfold eval; fun_prop

theorem memLp : MemLp (fun x : EuclideanSpace ℝ (Fin n) => q.eval x.ofLp) 2 (law μ P) := by
  have h1 : MemLp (fun x : EuclideanSpace ℝ (Fin n) => ∑ i, q.a i * x.ofLp i) 2 (law μ P) :=
    memLp_finsetSum Finset.univ fun i _ => (memLp_c1 i).const_mul (q.a i)
  have h2 : MemLp (fun x : EuclideanSpace ℝ (Fin n) => ∑ i, ∑ j, q.M i j * (x.ofLp i * x.ofLp j)) 2 (law μ P) :=
    memLp_finsetSum Finset.univ fun i _ => memLp_finsetSum Finset.univ fun j _ => (memLp_c2 i j).const_mul (q.M i j)
  have h3 : MemLp (fun x : EuclideanSpace ℝ (Fin n) => ∑ i, ∑ j, ∑ l, q.T i j l * (x.ofLp i * x.ofLp j * x.ofLp l)) 2 (law μ P) :=
    memLp_finsetSum Finset.univ fun i _ => memLp_finsetSum Finset.univ fun j _ => memLp_finsetSum Finset.univ fun l _ =>
      (memLp_c3 i j l).const_mul (q.T i j l)
  have h := (((memLp_const (μ := law μ P) (p := 2) q.c).add h1).add h2).add h3
  exact h

theorem integrable : Integrable (fun x : EuclideanSpace ℝ (Fin n) => q.eval x.ofLp) (law μ P) := q.memLp.integrable (by norm_num)

/-- The second order part at `μ`, as a linear function of a matrix. -/
def curv (μ : Fin n → ℝ) (B : Fin n → Fin n → ℝ) : ℝ :=
  ∑ i, ∑ j, q.M i j * B i j + ∑ i, ∑ j, ∑ l, q.T i j l * (μ i * B j l + μ j * B i l + μ l * B i j)

/-- The first order part at `μ` of a quadratic polynomial. -/
def slope (μ d : Fin n → ℝ) : ℝ := ∑ i, q.a i * d i + ∑ i, ∑ j, q.M i j * (μ i * d j + μ j * d i)

theorem even_part (μ d : Fin n → ℝ) : q.eval (μ + d) + q.eval (μ - d) = 2 * q.eval μ + 2 * q.curv μ fun i j => d i * d j := by
  simp only [eval, curv, Pi.add_apply, Pi.sub_apply]
  have e1 : ∑ i, q.a i * (μ i + d i) + ∑ i, q.a i * (μ i - d i) = 2 * ∑ i, q.a i * μ i := by
    rw [← Finset.sum_add_distrib, Finset.mul_sum]; exact Finset.sum_congr rfl fun i _ => by ring
  have e2 : ∑ i, ∑ j, q.M i j * ((μ i + d i) * (μ j + d j)) + ∑ i, ∑ j, q.M i j * ((μ i - d i) * (μ j - d j)) =
      2 * ∑ i, ∑ j, q.M i j * (μ i * μ j) + 2 * ∑ i, ∑ j, q.M i j * (d i * d j) := by
    simp only [Finset.mul_sum, ← Finset.sum_add_distrib]
    exact Finset.sum_congr rfl fun i _ => Finset.sum_congr rfl fun j _ => by ring
  have e3 : ∑ i, ∑ j, ∑ l, q.T i j l * ((μ i + d i) * (μ j + d j) * (μ l + d l)) +
      ∑ i, ∑ j, ∑ l, q.T i j l * ((μ i - d i) * (μ j - d j) * (μ l - d l)) =
      2 * ∑ i, ∑ j, ∑ l, q.T i j l * (μ i * μ j * μ l) +
        2 * ∑ i, ∑ j, ∑ l, q.T i j l * (μ i * (d j * d l) + μ j * (d i * d l) + μ l * (d i * d j)) := by
    simp only [Finset.mul_sum, ← Finset.sum_add_distrib]
    exact Finset.sum_congr rfl fun i _ => Finset.sum_congr rfl fun j _ => Finset.sum_congr rfl fun l _ => by ring
  linear_combination e1 + e2 + e3

theorem odd_part (hq : q.Quadratic) (μ d : Fin n → ℝ) : q.eval (μ + d) - q.eval (μ - d) = 2 * q.slope μ d := by
  simp only [eval, slope, Pi.add_apply, Pi.sub_apply, hq _ _ _, zero_mul, Finset.sum_const_zero, add_zero]
  have e1 : ∑ i, q.a i * (μ i + d i) - ∑ i, q.a i * (μ i - d i) = 2 * ∑ i, q.a i * d i := by
    rw [← Finset.sum_sub_distrib, Finset.mul_sum]; exact Finset.sum_congr rfl fun i _ => by ring
  have e2 : ∑ i, ∑ j, q.M i j * ((μ i + d i) * (μ j + d j)) - ∑ i, ∑ j, q.M i j * ((μ i - d i) * (μ j - d j)) =
      2 * ∑ i, ∑ j, q.M i j * (μ i * d j + μ j * d i) := by
    simp only [Finset.mul_sum, ← Finset.sum_sub_distrib]
    exact Finset.sum_congr rfl fun i _ => Finset.sum_congr rfl fun j _ => by ring
  linear_combination e1 + e2

theorem curv_add (μ : Fin n → ℝ) (B B' : Fin n → Fin n → ℝ) :
    q.curv μ (fun i j => B i j + B' i j) = q.curv μ B + q.curv μ B' := by
  have e1 : ∑ i, ∑ j, q.M i j * (B i j + B' i j) = ∑ i, ∑ j, q.M i j * B i j + ∑ i, ∑ j, q.M i j * B' i j := by
    simp only [mul_add, Finset.sum_add_distrib]
  have e2 : ∑ i, ∑ j, ∑ l, q.T i j l * (μ i * (B j l + B' j l) + μ j * (B i l + B' i l) + μ l * (B i j + B' i j)) =
      ∑ i, ∑ j, ∑ l, q.T i j l * (μ i * B j l + μ j * B i l + μ l * B i j) +
        ∑ i, ∑ j, ∑ l, q.T i j l * (μ i * B' j l + μ j * B' i l + μ l * B' i j) := by
    simp only [← Finset.sum_add_distrib]
    exact Finset.sum_congr rfl fun i _ => Finset.sum_congr rfl fun j _ => Finset.sum_congr rfl fun l _ => by ring
  simp only [curv]
  rw [e1, e2]; ring

theorem curv_smul (μ : Fin n → ℝ) (c : ℝ) (B : Fin n → Fin n → ℝ) : q.curv μ (fun i j => c * B i j) = c * q.curv μ B := by
  simp only [curv]
  rw [mul_add]
  simp only [Finset.mul_sum]
  congr 1
  · exact Finset.sum_congr rfl fun i _ => Finset.sum_congr rfl fun j _ => by ring
  · exact Finset.sum_congr rfl fun i _ => Finset.sum_congr rfl fun j _ => Finset.sum_congr rfl fun l _ => by ring

theorem curv_sum {m : ℕ} (μ : Fin n → ℝ) (B : Fin m → Fin n → Fin n → ℝ) (s : Finset (Fin m)) :
    q.curv μ (fun i j => ∑ r ∈ s, B r i j) = ∑ r ∈ s, q.curv μ (B r) := by
  induction s using Finset.induction_on with
  | empty => simp [curv]
  | insert a s ha ih => simp only [Finset.sum_insert ha, curv_add, ih]

theorem slope_add (μ d d' : Fin n → ℝ) : q.slope μ (fun i => d i + d' i) = q.slope μ d + q.slope μ d' := by
  have e1 : ∑ i, q.a i * (d i + d' i) = ∑ i, q.a i * d i + ∑ i, q.a i * d' i := by
    simp only [mul_add, Finset.sum_add_distrib]
  have e2 : ∑ i, ∑ j, q.M i j * (μ i * (d j + d' j) + μ j * (d i + d' i)) =
      ∑ i, ∑ j, q.M i j * (μ i * d j + μ j * d i) + ∑ i, ∑ j, q.M i j * (μ i * d' j + μ j * d' i) := by
    simp only [← Finset.sum_add_distrib]
    exact Finset.sum_congr rfl fun i _ => Finset.sum_congr rfl fun j _ => by ring
  simp only [slope]
  rw [e1, e2]; ring

theorem slope_smul (μ : Fin n → ℝ) (c : ℝ) (d : Fin n → ℝ) : q.slope μ (fun i => c * d i) = c * q.slope μ d := by
  simp only [slope]
  rw [mul_add]
  simp only [Finset.mul_sum]
  congr 1
  · exact Finset.sum_congr rfl fun i _ => by ring
  · exact Finset.sum_congr rfl fun i _ => Finset.sum_congr rfl fun j _ => by ring

theorem slope_sum {m : ℕ} (μ : Fin n → ℝ) (d : Fin m → Fin n → ℝ) (s : Finset (Fin m)) :
    q.slope μ (fun i => ∑ r ∈ s, d r i) = ∑ r ∈ s, q.slope μ (d r) := by
  induction s using Finset.induction_on with
  | empty => simp [slope]
  | insert a s ha ih => simp only [Finset.sum_insert ha, slope_add, ih]

end Cubic

theorem integrable_central2 (i j : Fin n) :
    Integrable (fun x : EuclideanSpace ℝ (Fin n) => (x.ofLp i - μ i) * (x.ofLp j - μ j)) (law μ P) :=
  ((memLp_c1 i).sub (memLp_const _)).integrable_mul ((memLp_c1 j).sub (memLp_const _))

/-- The mean of a cubic polynomial. -/
theorem Cubic.expect_eval (q : Cubic n) (hP : P.PosSemidef) : expect μ P q.eval = q.eval μ + q.curv μ fun i j => P i j := by
  have h1 : expect μ P q.eval = expect μ P fun x => q.eval μ + q.curv μ fun i j => (x i - μ i) * (x j - μ j) := by
    have h2 := expect_reflect (μ := μ) (P := P) q.continuous_eval
    have h3 : expect μ P q.eval + expect μ P (fun x => q.eval (μ + μ - x)) =
        ∫ x, (q.eval x.ofLp + q.eval (μ + μ - x.ofLp)) ∂(law μ P) := by
      unfold expect
      rw [integral_add q.integrable]
      exact (law_reflect (μ := μ) (P := P)).integrable_comp_of_integrable q.integrable
    have h4 : ∀ x : Fin n → ℝ, q.eval x + q.eval (μ + μ - x) = 2 * (q.eval μ + q.curv μ fun i j => (x i - μ i) * (x j - μ j)) := fun x => by
      have := q.even_part μ (x - μ)
      rw [show μ + (x - μ) = x by abel, show μ - (x - μ) = μ + μ - x by abel] at this
      rw [this, mul_add]; rfl
    simp only [h4] at h3
    rw [integral_const_mul, ← h2] at h3
    have : expect μ P q.eval + expect μ P q.eval = 2 * expect μ P fun x => q.eval μ + q.curv μ fun i j => (x i - μ i) * (x j - μ j) := h3
    linarith
  rw [h1]
  unfold expect Cubic.curv
  have hi := fun i j => integrable_central2 (μ := μ) (P := P) i j
  have hc : ∀ i j, ∫ x, (x.ofLp i - μ i) * (x.ofLp j - μ j) ∂(law μ P) = P i j := fun i j => expect_central2 hP i j
  have hi2 : Integrable (fun x : EuclideanSpace ℝ (Fin n) => ∑ i, ∑ j, q.M i j * ((x.ofLp i - μ i) * (x.ofLp j - μ j))) (law μ P) :=
    integrable_finsetSum _ fun i _ => integrable_finsetSum _ fun j _ => (hi i j).const_mul _
  have hi3 : ∀ i j l, Integrable (fun x : EuclideanSpace ℝ (Fin n) => q.T i j l * (μ i * ((x.ofLp j - μ j) * (x.ofLp l - μ l)) +
      μ j * ((x.ofLp i - μ i) * (x.ofLp l - μ l)) + μ l * ((x.ofLp i - μ i) * (x.ofLp j - μ j)))) (law μ P) := fun i j l =>
    ((((hi j l).const_mul _).add ((hi i l).const_mul _)).add ((hi i j).const_mul _)).const_mul _
  have hi4 : Integrable (fun x : EuclideanSpace ℝ (Fin n) => ∑ i, ∑ j, ∑ l, q.T i j l *
      (μ i * ((x.ofLp j - μ j) * (x.ofLp l - μ l)) + μ j * ((x.ofLp i - μ i) * (x.ofLp l - μ l)) +
        μ l * ((x.ofLp i - μ i) * (x.ofLp j - μ j)))) (law μ P) :=
    integrable_finsetSum _ fun i _ => integrable_finsetSum _ fun j _ => integrable_finsetSum _ fun l _ => hi3 i j l
  have hadd := integral_add (integrable_const (μ := law μ P) (q.eval μ)) (hi2.add hi4)
  simp only [Pi.add_apply] at hadd
  rw [integral_add hi2 hi4, integral_const] at hadd
  refine hadd.trans ?_
  simp only [probReal_univ, one_smul]
  congr 2
  · rw [integral_finsetSum _ fun i _ => integrable_finsetSum _ fun j _ => (hi i j).const_mul _]
    refine Finset.sum_congr rfl fun i _ => ?_
    rw [integral_finsetSum _ fun j _ => (hi i j).const_mul _]
    refine Finset.sum_congr rfl fun j _ => ?_
    rw [integral_const_mul, hc]
  · rw [integral_finsetSum _ fun i _ => integrable_finsetSum _ fun j _ => integrable_finsetSum _ fun l _ => hi3 i j l]
    refine Finset.sum_congr rfl fun i _ => ?_
    rw [integral_finsetSum _ fun j _ => integrable_finsetSum _ fun l _ => hi3 i j l]
    refine Finset.sum_congr rfl fun j _ => ?_
    rw [integral_finsetSum _ fun l _ => hi3 i j l]
    refine Finset.sum_congr rfl fun l _ => ?_
    have h5 := integral_add (((hi j l).const_mul (μ i)).add ((hi i l).const_mul (μ j))) ((hi i j).const_mul (μ l))
    simp only [Pi.add_apply] at h5
    rw [integral_const_mul, h5, integral_add ((hi j l).const_mul _) ((hi i l).const_mul _), integral_const_mul,
      integral_const_mul, integral_const_mul, hc, hc, hc]

/-- The covariance of the argument with a quadratic polynomial. -/
theorem Cubic.expect_cross (q : Cubic n) (hq : q.Quadratic) (hP : P.PosSemidef) (i : Fin n) :
    expect μ P (fun x => (x i - μ i) * (q.eval x - expect μ P q.eval)) = q.slope μ fun l => P i l := by
  set E := expect μ P q.eval with hE
  have hcont : Continuous fun x : Fin n → ℝ => (x i - μ i) * (q.eval x - E) :=
    (by fun_prop : Continuous fun x : Fin n → ℝ => x i - μ i).mul (q.continuous_eval.sub continuous_const)
  have hint : Integrable (fun x : EuclideanSpace ℝ (Fin n) => (x.ofLp i - μ i) * (q.eval x.ofLp - E)) (law μ P) :=
    ((memLp_c1 i).sub (memLp_const _)).integrable_mul (q.memLp.sub (memLp_const _))
  have h2 := expect_reflect (μ := μ) (P := P) hcont
  have h3 : expect μ P (fun x => (x i - μ i) * (q.eval x - E)) + expect μ P (fun x => ((μ + μ - x) i - μ i) * (q.eval (μ + μ - x) - E)) =
      ∫ x, ((x.ofLp i - μ i) * (q.eval x.ofLp - E) + ((μ + μ - x.ofLp) i - μ i) * (q.eval (μ + μ - x.ofLp) - E)) ∂(law μ P) := by
    unfold expect
    rw [integral_add hint]
    exact (law_reflect (μ := μ) (P := P)).integrable_comp_of_integrable hint
  have h4 : ∀ x : Fin n → ℝ, (x i - μ i) * (q.eval x - E) + ((μ + μ - x) i - μ i) * (q.eval (μ + μ - x) - E) =
      2 * q.slope μ fun l => (x i - μ i) * (x l - μ l) := fun x => by
    have := q.odd_part hq μ (x - μ)
    rw [show μ + (x - μ) = x by abel, show μ - (x - μ) = μ + μ - x by abel] at this
    have e := q.slope_smul μ (x i - μ i) (x - μ)
    simp only [Pi.sub_apply] at e
    rw [e]
    simp only [Pi.sub_apply, Pi.add_apply]
    have e2 : q.slope μ (x - μ) = q.slope μ fun l => x l - μ l := rfl
    linear_combination (x i - μ i) * this
  simp only [h4] at h3
  rw [integral_const_mul, ← h2] at h3
  have h5 : expect μ P (fun x => (x i - μ i) * (q.eval x - E)) = ∫ x, q.slope μ (fun l => (x.ofLp i - μ i) * (x.ofLp l - μ l)) ∂(law μ P) := by
    linarith
  rw [h5]
  unfold Cubic.slope
  have hi := fun j => integrable_central2 (μ := μ) (P := P) i j
  have hc : ∀ j, ∫ x, (x.ofLp i - μ i) * (x.ofLp j - μ j) ∂(law μ P) = P i j := fun j => expect_central2 hP i j
  have hi2 : ∀ j l, Integrable (fun x : EuclideanSpace ℝ (Fin n) => q.M j l * (μ j * ((x.ofLp i - μ i) * (x.ofLp l - μ l)) +
      μ l * ((x.ofLp i - μ i) * (x.ofLp j - μ j)))) (law μ P) := fun j l => (((hi l).const_mul _).add ((hi j).const_mul _)).const_mul _
  have hi3 : Integrable (fun x : EuclideanSpace ℝ (Fin n) => ∑ j, q.a j * ((x.ofLp i - μ i) * (x.ofLp j - μ j))) (law μ P) :=
    integrable_finsetSum _ fun j _ => (hi j).const_mul _
  have hi4 : Integrable (fun x : EuclideanSpace ℝ (Fin n) => ∑ j, ∑ l, q.M j l * (μ j * ((x.ofLp i - μ i) * (x.ofLp l - μ l)) +
      μ l * ((x.ofLp i - μ i) * (x.ofLp j - μ j)))) (law μ P) :=
    integrable_finsetSum _ fun j _ => integrable_finsetSum _ fun l _ => hi2 j l
  refine (integral_add hi3 hi4).trans ?_
  congr 1
  · rw [integral_finsetSum _ fun j _ => (hi j).const_mul _]
    refine Finset.sum_congr rfl fun j _ => ?_
    rw [integral_const_mul, hc]
  · rw [integral_finsetSum _ fun j _ => integrable_finsetSum _ fun l _ => hi2 j l]
    refine Finset.sum_congr rfl fun j _ => ?_
    rw [integral_finsetSum _ fun l _ => hi2 j l]
    refine Finset.sum_congr rfl fun l _ => ?_
    rw [integral_const_mul, integral_add ((hi l).const_mul _) ((hi j).const_mul _), integral_const_mul, integral_const_mul, hc, hc]

/-- The fourth moment of a centred normal distribution. -/
theorem integral_pow_four (v : NNReal) : ∫ x, x ^ 4 ∂(gaussianReal 0 v) = 3 * (v : ℝ) ^ 2 := by
  have h := iteratedDeriv_mgf_zero (X := fun x : ℝ => x) (μ := gaussianReal 0 v) (by simp) 4
  have hexp : ∀ (t : ℝ), HasDerivAt (fun t : ℝ => Real.exp (v * t ^ 2 / 2)) (v * t * Real.exp (v * t ^ 2 / 2)) t := fun t => by
    have h1 : HasDerivAt (fun t : ℝ => v * t ^ 2 / 2) ((v : ℝ) * t) t := by
      have := ((hasDerivAt_pow 2 t).const_mul (v : ℝ)).div_const 2
      exact this.congr_deriv (by push_cast; ring)
    exact h1.exp.congr_deriv (by ring)
  have step : ∀ (p p' : ℝ → ℝ), (∀ t, HasDerivAt p (p' t) t) →
      deriv (fun t => p t * Real.exp (v * t ^ 2 / 2)) = fun t => (p' t + p t * (v * t)) * Real.exp (v * t ^ 2 / 2) := fun p p' hp => by
    funext t
    rw [((hp t).fun_mul (hexp t)).deriv]; ring
  rw [mgf_fun_id_gaussianReal] at h
  simp only [zero_mul, zero_add] at h
  have e0 : (fun t : ℝ => Real.exp (v * t ^ 2 / 2)) = fun t : ℝ => 1 * Real.exp (v * t ^ 2 / 2) := by funext t; ring
  rw [iteratedDeriv_succ, iteratedDeriv_succ, iteratedDeriv_succ, iteratedDeriv_one, e0,
    step (fun _ => 1) (fun _ => 0) fun t => hasDerivAt_const t 1,
    step (fun t => 0 + 1 * (v * t)) (fun _ => v) (fun t => by
      have := (hasDerivAt_id t).const_mul (v : ℝ)
      simpa using this),
    step (fun t => v + (0 + 1 * (v * t)) * (v * t)) (fun t => 2 * v ^ 2 * t) (fun t => by
      have := ((hasDerivAt_pow 2 t).const_mul ((v : ℝ) ^ 2)).const_add (v : ℝ)
      have e : (fun t : ℝ => (v : ℝ) + (0 + 1 * (v * t)) * (v * t)) = fun t : ℝ => (v : ℝ) + (v : ℝ) ^ 2 * t ^ 2 := by funext t; ring
      rw [e]; exact this.congr_deriv (by push_cast; ring)),
    step (fun t => 2 * v ^ 2 * t + (v + (0 + 1 * (v * t)) * (v * t)) * (v * t)) (fun t => 3 * v ^ 2 + 3 * v ^ 3 * t ^ 2) (fun t => by
      have := ((hasDerivAt_id t).const_mul (3 * (v : ℝ) ^ 2)).fun_add ((hasDerivAt_pow 3 t).const_mul ((v : ℝ) ^ 3))
      have e : (fun t : ℝ => 2 * (v : ℝ) ^ 2 * t + (v + (0 + 1 * (v * t)) * (v * t)) * (v * t)) =
          fun t : ℝ => 3 * (v : ℝ) ^ 2 * t + (v : ℝ) ^ 3 * t ^ 3 := by funext t; ring
      rw [e]; exact this.congr_deriv (by push_cast; ring))] at h
  simp only [Pi.pow_apply] at h
  rw [← h]; simp

/-- The fourth central moment of a coordinate. -/
theorem expect_central4 (hP : P.PosSemidef) (i : Fin n) : expect μ P (fun x => (x i - μ i) ^ 4) = 3 * P i i ^ 2 := by
  have hp := measurePreserving_eval_multivariateGaussian (μ := WithLp.toLp 2 μ) hP (i := i)
  have h1 : ∫ x, (x - μ i) ^ 4 ∂(gaussianReal (μ i) (P i i).toNNReal) = 3 * P i i ^ 2 := by
    calc ∫ x, (x - μ i) ^ 4 ∂(gaussianReal (μ i) (P i i).toNNReal)
        = ∫ x, x ^ 4 ∂((gaussianReal (μ i) (P i i).toNNReal).map fun x => x - μ i) := by
          rw [integral_map (by fun_prop) (by fun_prop)]
      _ = ∫ x, x ^ 4 ∂(gaussianReal 0 (P i i).toNNReal) := by simp [gaussianReal_map_sub_const]
      _ = _ := by rw [integral_pow_four, Real.coe_toNNReal _ hP.diag_nonneg]
  rw [← h1]
  have := integral_map (μ := multivariateGaussian (WithLp.toLp 2 μ) P) (φ := fun x => x i) hp.measurable.aemeasurable
    (f := fun x : ℝ => (x - μ i) ^ 4) (by fun_prop)
  rw [hp.map_eq] at this
  exact this.symm

/-- The variance of a quadratic polynomial in one variable. -/
theorem Cubic.expect_variance (q : Cubic 1) (hq : q.Quadratic) (μ : Fin 1 → ℝ) {P : Matrix (Fin 1) (Fin 1) ℝ} (hP : P.PosSemidef) :
    expect μ P (fun x => (q.eval x - expect μ P q.eval) ^ 2) =
      (q.a 0 + 2 * q.M 0 0 * μ 0) ^ 2 * P 0 0 + 2 * q.M 0 0 ^ 2 * P 0 0 ^ 2 := by
  have hE : expect μ P q.eval = q.eval μ + q.M 0 0 * P 0 0 := by
    rw [q.expect_eval hP]
    simp [Cubic.curv, hq 0 0 0]
  have hdev : ∀ x : Fin 1 → ℝ, q.eval x - expect μ P q.eval =
      (q.a 0 + 2 * q.M 0 0 * μ 0) * (x 0 - μ 0) + q.M 0 0 * ((x 0 - μ 0) ^ 2 - P 0 0) := fun x => by
    rw [hE]
    simp only [Cubic.eval, Finset.univ_unique, Fin.default_eq_zero, Finset.sum_singleton, hq 0 0 0]
    ring
  set b := q.a 0 + 2 * q.M 0 0 * μ 0
  set M := q.M 0 0
  set p := P 0 0
  set E := expect μ P q.eval
  have hcont : Continuous fun x : Fin 1 → ℝ => (q.eval x - E) ^ 2 := (q.continuous_eval.sub continuous_const).pow 2
  have hint : Integrable (fun x : EuclideanSpace ℝ (Fin 1) => (q.eval x.ofLp - E) ^ 2) (law μ P) :=
    (q.memLp.sub (memLp_const _)).integrable_sq
  have h2 := expect_reflect (μ := μ) (P := P) hcont
  have h3 : expect μ P (fun x => (q.eval x - E) ^ 2) + expect μ P (fun x => (q.eval (μ + μ - x) - E) ^ 2) =
      ∫ x, ((q.eval x.ofLp - E) ^ 2 + (q.eval (μ + μ - x.ofLp) - E) ^ 2) ∂(law μ P) := by
    unfold expect
    rw [integral_add hint]
    exact (law_reflect (μ := μ) (P := P)).integrable_comp_of_integrable hint
  have h4 : ∀ x : Fin 1 → ℝ, (q.eval x - E) ^ 2 + (q.eval (μ + μ - x) - E) ^ 2 =
      2 * (((b ^ 2 - 2 * M ^ 2 * p) * ((x 0 - μ 0) * (x 0 - μ 0)) + M ^ 2 * (x 0 - μ 0) ^ 4) + M ^ 2 * p ^ 2) := fun x => by
    rw [hdev, hdev]
    simp only [Pi.sub_apply, Pi.add_apply]
    ring
  simp only [h4] at h3
  rw [integral_const_mul, ← h2] at h3
  have hi2 := integrable_central2 (μ := μ) (P := P) 0 0
  have hi4 : Integrable (fun x : EuclideanSpace ℝ (Fin 1) => (x.ofLp 0 - μ 0) ^ 4) (law μ P) := by
    have hm : MemLp (fun x : EuclideanSpace ℝ (Fin 1) => x.ofLp 0 * x.ofLp 0 - 2 * μ 0 * x.ofLp 0 + μ 0 ^ 2) 2 (law μ P) :=
      ((memLp_c2 0 0).sub ((memLp_c1 0).const_mul _)).add (memLp_const _)
    refine hm.integrable_sq.congr (Filter.Eventually.of_forall fun x => ?_)
    simp only; ring
  have hc2 : ∫ x, (x.ofLp 0 - μ 0) * (x.ofLp 0 - μ 0) ∂(law μ P) = p := expect_central2 hP 0 0
  have hc4 : ∫ x, (x.ofLp 0 - μ 0) ^ 4 ∂(law μ P) = 3 * p ^ 2 := expect_central4 hP 0
  have h5 := integral_add ((hi2.const_mul (b ^ 2 - 2 * M ^ 2 * p)).add (hi4.const_mul (M ^ 2))) (integrable_const (μ := law μ P) (M ^ 2 * p ^ 2))
  simp only [Pi.add_apply] at h5
  rw [integral_add (hi2.const_mul (b ^ 2 - 2 * M ^ 2 * p)) (hi4.const_mul (M ^ 2)), integral_const_mul, integral_const_mul, hc2, hc4,
    integral_const, probReal_univ, one_smul] at h5
  rw [h5] at h3
  linarith

end Verif
