import Verif.Lemmas.Isserlis
import Verif.Props.Accuracy

/-!
# The unscented covariance of quadratic functions in any dimension (C68, continued)
-/

namespace Verif

open Matrix

variable {env : Env} {n k : ℕ}

/-- The weighted sum over the sigma points, for two quadratic polynomials. -/
private theorem cov_sum {alpha beta kappa : ℝ} (hpos : 0 < alpha * alpha * (n + kappa)) {P L : Matrix (Fin n) (Fin n) ℝ}
    (hP : P.PosSemidef) (hL : Lᵀ * L = P) (μ : Fin n → ℝ) (q r : Cubic n) (hq : q.Quadratic) (hr : r.Quadratic) :
    ∑ l, UT.covWeights n alpha beta kappa l * (q.eval (sigmaMat μ L (Real.sqrt (alpha * alpha * (n + kappa))) l) - expect μ P q.eval) *
      (r.eval (sigmaMat μ L (Real.sqrt (alpha * alpha * (n + kappa))) l) - expect μ P r.eval) =
    q.grad μ ⬝ᵥ P *ᵥ r.grad μ + 1 / 4 * (alpha ^ 2 * (n + kappa) * ∑ l, (L l ⬝ᵥ q.hess *ᵥ L l) * (L l ⬝ᵥ r.hess *ᵥ L l) +
      (beta - alpha ^ 2) * ((q.hess * P).trace * (r.hess * P).trace)) := by
  have hplus : ∀ (q : Cubic n), q.Quadratic → ∀ (s : ℝ) (d : Fin n → ℝ), q.eval (fun j => μ j + s * d j) =
      q.eval μ + s * (q.grad μ ⬝ᵥ d) + 1 / 2 * (s ^ 2 * (d ⬝ᵥ q.hess *ᵥ d)) := fun q hq s d => by
    have := q.taylor hq μ (s • d)
    simp only [dotProduct_smul, smul_dotProduct, mulVec_smul, smul_eq_mul] at this
    rw [show (fun j => μ j + s * d j) = μ + s • d from rfl, this]; ring
  have hminus : ∀ (q : Cubic n), q.Quadratic → ∀ (s : ℝ) (d : Fin n → ℝ), q.eval (fun j => μ j - s * d j) =
      q.eval μ - s * (q.grad μ ⬝ᵥ d) + 1 / 2 * (s ^ 2 * (d ⬝ᵥ q.hess *ᵥ d)) := fun q hq s d => by
    have := hplus q hq (-s) d
    simp only [neg_mul, ← sub_eq_add_neg, neg_sq] at this
    exact this
  have htr : ∀ A : Matrix (Fin n) (Fin n) ℝ, ∑ l, L l ⬝ᵥ A *ᵥ L l = (A * P).trace := fun A => by
    rw [← hL, ← Matrix.mul_assoc, Matrix.trace_mul_comm, trace]
    refine Finset.sum_congr rfl fun l _ => ?_
    rw [diag_apply, Matrix.mul_apply]
    simp only [dotProduct, mulVec, Matrix.mul_apply, transpose_apply]
  have hlin : ∑ l, (q.grad μ ⬝ᵥ L l) * (r.grad μ ⬝ᵥ L l) = q.grad μ ⬝ᵥ P *ᵥ r.grad μ := by
    rw [← hL, ← mulVec_mulVec, dotProduct_mulVec, vecMul_transpose]
    simp only [dotProduct, mulVec]
    refine Finset.sum_congr rfl fun l _ => ?_
    congr 1 <;> exact Finset.sum_congr rfl fun j _ => mul_comm _ _
  rw [q.expect_quadratic hq hP, r.expect_quadratic hr hP, sum_ut]
  have hs : Real.sqrt (alpha * alpha * (n + kappa)) ^ 2 = alpha * alpha * (n + kappa) := Real.sq_sqrt hpos.le
  set s := Real.sqrt (alpha * alpha * (n + kappa)) with hsd
  simp only [sigmaMat_centre, sigmaMat_plus, sigmaMat_minus, UT.covWeights, hplus q hq, hplus r hr, hminus q hq, hminus r hr]
  simp only [Fin.val_castAdd, Fin.val_natAdd, Fin.val_zero, if_true, Nat.add_eq_zero_iff, one_ne_zero, false_and, if_false]
  rw [add_assoc, ← Finset.sum_add_distrib, ← hlin, ← htr q.hess, ← htr r.hess, hs]
  have hc : (n : ℝ) + (alpha * alpha * (n + kappa) - n) = alpha * alpha * (n + kappa) := by ring
  rw [hc, show alpha ^ 2 * ((n : ℝ) + kappa) = alpha * alpha * (n + kappa) by ring]
  generalize hcd : alpha * alpha * ((n : ℝ) + kappa) = c at *
  set T := ∑ l, L l ⬝ᵥ q.hess *ᵥ L l with hT
  set U := ∑ l, L l ⬝ᵥ r.hess *ᵥ L l with hU
  have hev : ∀ l : Fin n, 1 / (2 * c) * (q.eval μ + s * (q.grad μ ⬝ᵥ L l) + 1 / 2 * (c * (L l ⬝ᵥ q.hess *ᵥ L l)) - (q.eval μ + 1 / 2 * T)) *
      (r.eval μ + s * (r.grad μ ⬝ᵥ L l) + 1 / 2 * (c * (L l ⬝ᵥ r.hess *ᵥ L l)) - (r.eval μ + 1 / 2 * U)) +
      1 / (2 * c) * (q.eval μ - s * (q.grad μ ⬝ᵥ L l) + 1 / 2 * (c * (L l ⬝ᵥ q.hess *ᵥ L l)) - (q.eval μ + 1 / 2 * T)) *
      (r.eval μ - s * (r.grad μ ⬝ᵥ L l) + 1 / 2 * (c * (L l ⬝ᵥ r.hess *ᵥ L l)) - (r.eval μ + 1 / 2 * U)) =
      (q.grad μ ⬝ᵥ L l) * (r.grad μ ⬝ᵥ L l) + c / 4 * ((L l ⬝ᵥ q.hess *ᵥ L l) * (L l ⬝ᵥ r.hess *ᵥ L l)) -
        U / 4 * (L l ⬝ᵥ q.hess *ᵥ L l) - T / 4 * (L l ⬝ᵥ r.hess *ᵥ L l) + 1 / c * (T * U / 4) := fun l => by
    have hc0 := hpos.ne'
    have h1 : s ^ 2 / c = 1 := by rw [hs, div_self hc0]
    generalize q.grad μ ⬝ᵥ L l = g1
    generalize r.grad μ ⬝ᵥ L l = g2
    generalize L l ⬝ᵥ q.hess *ᵥ L l = h1'
    generalize L l ⬝ᵥ r.hess *ᵥ L l = h2'
    have : 1 / (2 * c) * (s * g1) * (s * g2) * 2 = g1 * g2 := by
      rw [show 1 / (2 * c) * (s * g1) * (s * g2) * 2 = s ^ 2 / c * (g1 * g2) by field_simp, h1, one_mul]
    rw [← this]
    field_simp
    ring
  simp only [hev, Finset.sum_add_distrib, Finset.sum_sub_distrib, ← Finset.mul_sum, Finset.sum_const, Finset.card_univ, Fintype.card_fin,
    nsmul_eq_mul, ← hT, ← hU]
  have hc0 := hpos.ne'
  have hκ : alpha ^ 2 = alpha * alpha := sq alpha
  rw [hκ]
  field_simp
  ring

/-- **C68**, covariances in any dimension. For functions whose components are polynomials of degree at most two, with gradients `g_a` at the
mean and Hessians `H_a`, the true covariance of two components is `g_aᵀ P g_b + tr(H_a P H_b P) / 2`. The unscented transform returns
`g_aᵀ P g_b + (alpha² (n + kappa) Σ_r (L_r H_a L_rᵀ) (L_r H_b L_rᵀ) + (beta - alpha²) tr(H_a P) tr(H_b P)) / 4`, where `L_r` are the rows of the
upper triangular Cholesky factor of `P`. -/
theorem C68_unscented_covariance {alpha beta kappa : ℝ} {u : UT} (hu : UT.init n alpha beta kappa = .ok u)
    (hpos : 0 < alpha ^ 2 * (n + kappa)) {g : Gaussian} {μ : Fin n → ℝ} {P L : Matrix (Fin n) (Fin n) ℝ} (hg : HasMoments env g μ P)
    (hL : IsUpperChol P L) {func : Func} {q : Fin k → Cubic n} (hq : ∀ a, (q a).Quadratic) (hf : OnRows func fun x j => (q j).eval x) :
    ∃ (S : Matrix (Fin k) (Fin k) ℝ) (C : Matrix (Fin n) (Fin k) ℝ),
      u.transform env func g = .ok (.v fun j => expect μ P (q j).eval, .m S, .m C) ∧
      ∀ a b, S a b = (q a).grad μ ⬝ᵥ P *ᵥ (q b).grad μ +
          1 / 4 * (alpha ^ 2 * (n + kappa) * ∑ r, (L r ⬝ᵥ (q a).hess *ᵥ L r) * (L r ⬝ᵥ (q b).hess *ᵥ L r) +
            (beta - alpha ^ 2) * (((q a).hess * P).trace * ((q b).hess * P).trace)) ∧
        expect μ P (fun x => ((q a).eval x - expect μ P (q a).eval) * ((q b).eval x - expect μ P (q b).eval)) =
          (q a).grad μ ⬝ᵥ P *ᵥ (q b).grad μ + 1 / 2 * ((q a).hess * P * (q b).hess * P).trace := by
  have hP := hL.posDef
  obtain ⟨Y, σ, hσ, hY, h⟩ := ut_rows hu hpos hg hP hf
  have hpos' : 0 < alpha * alpha * (n + kappa) := by rwa [← sq]
  obtain ⟨S, C, h', -⟩ := C68_unscented_polynomials hu hpos hg hP hf
  have hm : UT.meanWeights n alpha kappa ᵥ* Y = fun j => expect μ P (q j).eval := by
    have := h.symm.trans h'
    simp only [Except.ok.injEq, Prod.mk.injEq, Arr.v_inj] at this
    exact this.1
  rw [hm] at h
  refine ⟨_, _, h, fun a b => ⟨?_, (q a).expect_covariance (q b) (hq a) (hq b) hP.posSemidef⟩⟩
  have hL' : cholU hP = L := upperChol_unique (cholU_spec hP) hL
  rw [← cov_sum (beta := beta) hpos' hP.posSemidef hL.mul_eq μ (q a) (q b) (hq a) (hq b)]
  simp only [of_apply, hY, hσ, hL']

/-- **C68**, a term no parameters recover: for two different components of a state with independent components, the unscented variance of
their product is `μ_j² p_i + μ_i² p_j` whatever `alpha`, `beta` and `kappa`; the true variance is larger by `p_i p_j`. About the mean zero the
unscented transform takes the product for a constant. -/
theorem C68_product {alpha beta kappa : ℝ} {u : UT} (hu : UT.init n alpha beta kappa = .ok u)
    (hpos : 0 < alpha ^ 2 * (n + kappa)) {g : Gaussian} {μ p : Fin n → ℝ} (hp : ∀ i, 0 < p i) (hg : HasMoments env g μ (diagonal p))
    {i j : Fin n} (hij : i ≠ j) {func : Func} (hf : OnRows func fun x (_ : Fin 1) => x i * x j) :
    (∃ C, u.transform env func g = .ok (.v (v1 (μ i * μ j)), .m (m1 (μ j ^ 2 * p i + μ i ^ 2 * p j)), C)) ∧
    expect μ (diagonal p) (fun x => (x i * x j - expect μ (diagonal p) fun x => x i * x j) ^ 2) = μ j ^ 2 * p i + μ i ^ 2 * p j + p i * p j := by
  let q : Cubic n := ⟨0, 0, fun a b => if a = i ∧ b = j then 1 else 0, fun _ _ _ => 0⟩
  have hq : q.Quadratic := fun _ _ _ => rfl
  have hM : ∀ f : Fin n → Fin n → ℝ, ∑ a, ∑ b, q.M a b * f a b = f i j := fun f => by
    simp only [q]
    rw [Finset.sum_eq_single i (fun a _ ha => by simp [ha]) (by simp), Finset.sum_eq_single j (fun b _ hb => by simp [hb]) (by simp)]
    simp
  have hev : q.eval = fun x => x i * x j := by
    funext x
    rw [Cubic.eval, hM]
    simp [q]
  have hL : IsUpperChol (diagonal p) (diagonal fun r => Real.sqrt (p r)) :=
    ⟨fun a b h => diagonal_apply_ne _ h.ne', fun a => by simp [hp a], by
      rw [diagonal_transpose, diagonal_mul_diagonal]; congr 1; funext r; exact Real.mul_self_sqrt (hp r).le⟩
  have hP := hL.posDef
  have hd : ∀ r, q.hess r r = 0 := fun r => by
    have : ¬ (r = i ∧ r = j) := fun h => hij (h.1.symm.trans h.2)
    simp [Cubic.hess, q, this]
  have hquad : ∀ r, (diagonal fun r => Real.sqrt (p r)) r ⬝ᵥ q.hess *ᵥ (diagonal fun r => Real.sqrt (p r)) r = 0 := fun r => by
    simp only [dotProduct, mulVec, diagonal_apply, ite_mul, mul_ite, zero_mul, mul_zero, Finset.sum_ite_eq, Finset.mem_univ, if_true, hd]
  have htr : (q.hess * diagonal p).trace = 0 := by
    simp only [trace, diag_apply, mul_diagonal, hd, zero_mul, Finset.sum_const_zero]
  have hgrad : ∀ a, q.grad μ a = (if a = i then μ j else 0) + if a = j then μ i else 0 := fun a => by
    simp only [Cubic.grad, q, add_mul, Finset.sum_add_distrib, Pi.zero_apply, zero_add]
    congr 1
    · rw [Finset.sum_eq_single j (fun b _ hb => by simp [hb]) (by simp)]; simp
    · rw [Finset.sum_eq_single i (fun b _ hb => by simp [hb]) (by simp)]; simp
  have hlin : q.grad μ ⬝ᵥ diagonal p *ᵥ q.grad μ = μ j ^ 2 * p i + μ i ^ 2 * p j := by
    simp only [dotProduct, mulVec_diagonal]
    have : ∀ a, q.grad μ a * (p a * q.grad μ a) = (if a = i then μ j ^ 2 * p i else 0) + if a = j then μ i ^ 2 * p j else 0 := fun a => by
      rw [hgrad]
      by_cases h1 : a = i
      · subst h1; simp only [hij, if_true, if_false, add_zero]; ring
      · by_cases h2 : a = j
        · subst h2; simp only [h1, if_true, if_false, zero_add]; ring
        · simp [h1, h2]
    simp only [this, Finset.sum_add_distrib, Finset.sum_ite_eq', Finset.mem_univ, if_true]
  have htr2 : (q.hess * diagonal p * q.hess * diagonal p).trace = 2 * (p i * p j) := by
    have e : q.hess * diagonal p * q.hess * diagonal p = (q.hess * diagonal p) * (q.hess * diagonal p) := by simp only [Matrix.mul_assoc]
    have hh : ∀ a b, q.hess a b = (if a = i ∧ b = j then 1 else 0) + if b = i ∧ a = j then 1 else 0 := fun a b => rfl
    have key : ∑ a, ∑ b, q.M a b * (q.hess b a * (p a * p b)) + ∑ a, ∑ b, q.M b a * (q.hess b a * (p a * p b)) = 2 * (p i * p j) := by
      rw [Finset.sum_comm (f := fun a b => q.M b a * (q.hess b a * (p a * p b))), hM, hM, hh, hh]
      simp [hij, hij.symm]; ring
    rw [e, ← key, trace]
    simp only [diag_apply, Matrix.mul_apply (M := q.hess * diagonal p), mul_diagonal, ← Finset.sum_add_distrib]
    refine Finset.sum_congr rfl fun a _ => Finset.sum_congr rfl fun b _ => ?_
    rw [show q.hess a b = q.M a b + q.M b a from rfl]; ring
  obtain ⟨S, C, h, h1⟩ := C68_unscented_covariance (env := env) hu hpos hg hL (q := fun _ : Fin 1 => q) (fun _ => hq) (by rw [hev]; exact hf)
  obtain ⟨h2, h3⟩ := h1 0 0
  have hE : expect μ (diagonal p) (fun x => x i * x j) = μ i * μ j := by
    rw [← hev, q.expect_quadratic hq hP.posSemidef, htr, hev]; ring
  refine ⟨⟨.m C, ?_⟩, ?_⟩
  · rw [h, m1_ext S, h2, hlin, htr]
    simp only [hquad, hev, hE]
    congr 4
    simp
  · rw [hlin, htr2, hev] at h3
    simp only [sq]
    rw [h3]; ring

/-- Two independent standard normal variables: their product has variance one, the unscented transform says zero. -/
example : ∃ u C, UT.init 2 1 2 1 = .ok u ∧ u.transform calmEnv (rowsFunc fun (x : Fin 2 → ℝ) (_ : Fin 1) => x 0 * x 1)
    (Gaussian.ofMoment (.v ![0, 0]) (.m (diagonal ![1, 1]))) = .ok (.v (v1 0), .m (m1 0), C) := by
  obtain ⟨u, h, -⟩ := (C14_unscented_weights 2 1 2 1).2 (by norm_num)
  obtain ⟨⟨C, h1⟩, -⟩ := C68_product (env := calmEnv) h (by norm_num) (p := ![1, 1]) (by intro i; fin_cases i <;> simp)
    (hasMoments_ofMoment calmEnv ![0, 0] _) (i := 0) (j := 1) (by simp) (rowsFunc_onRows fun (x : Fin 2 → ℝ) (_ : Fin 1) => x 0 * x 1)
  exact ⟨u, C, h, h1.trans (by simp)⟩

/-- **C68**, the Lorenz experiment: it predicts its measurement, the squares of the components, with `alpha = 1`, `beta = 2`, `kappa = 2`. For a
state with independent components the true variances are `4 μ_a² p_a + 2 p_a²` and the true covariances zero. The unscented transform returns
`4 μ_a² p_a + (n + 3) p_a²`, growing with the dimension, and covariances `p_a p_b`. -/
theorem C68_lorenz_measurement {u : UT} (hu : UT.init n 1 2 2 = .ok u) {g : Gaussian} {μ p : Fin n → ℝ} (hp : ∀ i, 0 < p i)
    (hg : HasMoments env g μ (diagonal p)) (t c : Option ℝ) :
    ∃ (S : Matrix (Fin n) (Fin n) ℝ) (C : Arr), u.transform env (fun x => L96.h x t c) g = .ok (.v fun a => μ a ^ 2 + p a, .m S, C) ∧
      (∀ a, S a a = 4 * μ a ^ 2 * p a + (n + 3) * p a ^ 2) ∧ (∀ a b, a ≠ b → S a b = p a * p b) ∧
      (∀ a, expect μ (diagonal p) (fun x => (x a ^ 2 - (μ a ^ 2 + p a)) ^ 2) = 4 * μ a ^ 2 * p a + 2 * p a ^ 2) ∧
      ∀ a b, a ≠ b → expect μ (diagonal p) (fun x => (x a ^ 2 - (μ a ^ 2 + p a)) * (x b ^ 2 - (μ b ^ 2 + p b))) = 0 := by
  let q : Fin n → Cubic n := fun k => ⟨0, 0, fun a b => if a = k ∧ b = k then 1 else 0, fun _ _ _ => 0⟩
  have hq : ∀ k, (q k).Quadratic := fun _ _ _ _ => rfl
  have hev : ∀ k, (q k).eval = fun x => x k ^ 2 := fun k => by
    funext x
    simp only [Cubic.eval, q, Pi.zero_apply, zero_mul, Finset.sum_const_zero, add_zero, zero_add]
    rw [Finset.sum_eq_single k (fun a _ ha => by simp [ha]) (by simp), Finset.sum_eq_single k (fun b _ hb => by simp [hb]) (by simp)]
    simp [sq]
  have hL : IsUpperChol (diagonal p) (diagonal fun r => Real.sqrt (p r)) :=
    ⟨fun a b h => diagonal_apply_ne _ h.ne', fun a => by simp [hp a], by
      rw [diagonal_transpose, diagonal_mul_diagonal]; congr 1; funext r; exact Real.mul_self_sqrt (hp r).le⟩
  have hP := hL.posDef
  have hh : ∀ k, (q k).hess = diagonal fun r => if r = k then 2 else 0 := fun k => by
    ext a b
    simp only [Cubic.hess, q, of_apply, diagonal_apply]
    by_cases h1 : a = k
    · by_cases h2 : b = k
      · subst h1; subst h2; norm_num
      · subst h1; simp [h2, Ne.symm h2]
    · by_cases h2 : b = k
      · subst h2; simp [h1]
      · simp [h1, h2]
  have hgrad : ∀ k a, (q k).grad μ a = if a = k then 2 * μ k else 0 := fun k a => by
    have h0 : ∀ b, (q k).M a b + (q k).M b a = (q k).hess a b := fun b => rfl
    simp only [Cubic.grad, h0, hh, diagonal_apply, ite_mul, zero_mul, Finset.sum_ite_eq, Finset.mem_univ, if_true]
    split_ifs with h
    · subst h; simp [q]
    · simp [q]
  have hquad : ∀ k r, (diagonal fun r => Real.sqrt (p r)) r ⬝ᵥ (q k).hess *ᵥ (diagonal fun r => Real.sqrt (p r)) r =
      if r = k then 2 * p k else 0 := fun k r => by
    rw [hh]
    simp only [dotProduct, mulVec_diagonal]
    rw [Finset.sum_eq_single r (fun b _ hb => by rw [diagonal_apply_ne _ hb.symm, zero_mul]) (by simp), diagonal_apply_eq]
    split_ifs with h
    · subst h; linear_combination 2 * Real.mul_self_sqrt (hp r).le
    · ring
  have htr : ∀ k, ((q k).hess * diagonal p).trace = 2 * p k := fun k => by
    rw [hh, diagonal_mul_diagonal, trace_diagonal]
    simp only [ite_mul, zero_mul, Finset.sum_ite_eq', Finset.mem_univ, if_true]
  have hlin : ∀ a b, (q a).grad μ ⬝ᵥ diagonal p *ᵥ (q b).grad μ = if a = b then 4 * μ a ^ 2 * p a else 0 := fun a b => by
    simp only [dotProduct, mulVec_diagonal, hgrad, ite_mul, zero_mul, Finset.sum_ite_eq', Finset.mem_univ, if_true]
    split_ifs with h
    · subst h; ring
    · ring
  have htr2 : ∀ a b, ((q a).hess * diagonal p * (q b).hess * diagonal p).trace = if a = b then 4 * p a ^ 2 else 0 := fun a b => by
    rw [hh, hh, diagonal_mul_diagonal, diagonal_mul_diagonal, diagonal_mul_diagonal, trace_diagonal]
    simp only [ite_mul, mul_ite, mul_zero, zero_mul]
    rw [Finset.sum_eq_single a (fun r _ hr => by simp [hr]) (by simp)]
    simp only [if_true]
    split_ifs with h
    · ring
    · rfl
  have hE : ∀ k, expect μ (diagonal p) (q k).eval = μ k ^ 2 + p k := fun k => by
    rw [(q k).expect_quadratic (hq k) hP.posSemidef, htr, hev]; ring
  obtain ⟨S, C, h, h1⟩ := C68_unscented_covariance (env := env) hu (by norm_num; positivity) hg hL (func := fun x => L96.h x t c) (q := q) hq (by
    intro N X
    simp only [hev]
    rfl)
  simp only [hE] at h h1
  refine ⟨S, .m C, h, fun a => ?_, fun a b hab => ?_, fun a => ?_, fun a b hab => ?_⟩
  · rw [(h1 a a).1, hlin, if_pos rfl, htr]
    simp only [hquad, ite_mul, mul_ite, mul_zero, zero_mul, Finset.sum_ite_eq', Finset.mem_univ, if_true]
    ring
  · rw [(h1 a b).1, hlin, if_neg hab, htr, htr]
    simp only [hquad, ite_mul, mul_ite, mul_zero, zero_mul]
    rw [Finset.sum_eq_zero fun r _ => by
      by_cases h2 : r = a
      · subst h2; simp [hab]
      · simp [h2]]
    ring
  · have := (h1 a a).2
    rw [hlin, htr2, if_pos rfl, if_pos rfl] at this
    simp only [hev] at this
    simp only [sq (_ - _)]
    rw [this]; ring
  · have := (h1 a b).2
    rw [hlin, htr2, if_neg hab, if_neg hab] at this
    simp only [hev] at this
    rw [this]; ring

/-- With 40 components of unit variance about the mean zero: variance 43 instead of 2, and covariance 1 instead of 0. -/
example : ∃ (u : UT) (m : Arr) (S : Matrix (Fin 40) (Fin 40) ℝ) (C : Arr), UT.init 40 1 2 2 = .ok u ∧
    u.transform calmEnv (fun x => L96.h x none none) (Gaussian.ofMoment (.v (0 : Fin 40 → ℝ)) (.m (diagonal fun _ : Fin 40 => 1))) = .ok (m, .m S, C) ∧
    S 0 0 = 43 ∧ S 0 1 = 1 := by
  obtain ⟨u, h, -⟩ := (C14_unscented_weights 40 1 2 2).2 (by norm_num)
  obtain ⟨S, C, h1, h2, h3, -⟩ := C68_lorenz_measurement (env := calmEnv) h (p := fun _ => 1) (fun _ => one_pos) (hasMoments_ofMoment calmEnv 0 _) none none
  refine ⟨u, _, S, C, h, h1, ?_, ?_⟩
  · rw [h2]; norm_num
  · rw [h3 0 1 (by decide)]; norm_num

end Verif
