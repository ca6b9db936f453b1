import Verif.Lemmas.Expectation
import Verif.Lemmas.ScalarRule
import Verif.Props.Transforms
import Verif.Model.Systems

/-!
# Accuracy of the unscented transform on polynomials: C68
-/

namespace Verif

open Matrix

variable {env : Env} {n k : ℕ}

/-- What the unscented transform returns for a function that works row by row. -/
theorem ut_rows {alpha beta kappa : ℝ} {u : UT} (hu : UT.init n alpha beta kappa = .ok u)
    (hpos : 0 < alpha ^ 2 * (n + kappa)) {g : Gaussian} {μ : Fin n → ℝ} {P : Matrix (Fin n) (Fin n) ℝ} (hg : HasMoments env g μ P)
    (hP : P.PosDef) {func : Func} {F : (Fin n → ℝ) → Fin k → ℝ} (hf : OnRows func F) :
    ∃ (Y : Matrix (Fin (1 + n + n)) (Fin k) ℝ) (σ : Matrix (Fin (1 + n + n)) (Fin n) ℝ),
      σ = sigmaMat μ (cholU hP) (Real.sqrt (alpha * alpha * (n + kappa))) ∧ Y = (of fun i j => F (σ i) j) ∧
      u.transform env func g = .ok (.v (UT.meanWeights n alpha kappa ᵥ* Y),
        .m (of fun i j => ∑ l, UT.covWeights n alpha beta kappa l * (Y l i - (UT.meanWeights n alpha kappa ᵥ* Y) i) *
          (Y l j - (UT.meanWeights n alpha kappa ᵥ* Y) j)),
        .m (of fun i j => ∑ l, UT.covWeights n alpha beta kappa l * (σ l i - μ i) *
          (Y l j - (UT.meanWeights n alpha kappa ᵥ* Y) j))) := by
  obtain ⟨h0, rfl⟩ := ut_init hu
  have hpos' : 0 < alpha * alpha * (n + kappa) := by rwa [← sq]
  have hk : ((n : ℝ) + (alpha * alpha * (n + kappa) - n)) = alpha * alpha * (n + kappa) := by ring
  have hσ := sigmaPoints_ok (u := ⟨n, alpha * alpha * (n + kappa) - n, UT.meanWeights n alpha kappa,
      (UT.wLeft (UT.meanWeights n alpha kappa))ᵀ * Matrix.diagonal (UT.covWeights n alpha beta kappa) *
        UT.wLeft (UT.meanWeights n alpha kappa)⟩) (μ := μ) hP (by simp only; rw [hk]; exact hpos'.le)
  simp only [hk] at hσ
  refine ⟨_, _, rfl, rfl, ?_⟩
  rw [ut_transform_of hg.1 hg.2 hσ (hf _ _)]
  simp only [Except.ok.injEq, Prod.mk.injEq, Arr.m.injEq, heq_eq_eq, true_and]
  have hmean := vecMul_sigma h0 μ (cholU hP) (Real.sqrt (alpha * alpha * (n + kappa)))
  refine ⟨?_, ?_⟩
  · ext i j
    simp only [Matrix.smul_apply, Matrix.add_apply, transpose_apply, smul_eq_mul, weighted_form, of_apply]
    have : ∀ a b : ℝ, a = b → 2⁻¹ * (a + b) = a := fun a b h => by rw [h]; ring
    exact this _ _ (Finset.sum_congr rfl fun l _ => by ring)
  · ext i j
    simp only [weighted_form, hmean, of_apply]

private theorem two_w {alpha kappa : ℝ} (hpos : 0 < alpha * alpha * (n + kappa)) :
    2 * (1 / (2 * ((n : ℝ) + (alpha * alpha * (n + kappa) - n)))) * (Real.sqrt (alpha * alpha * (n + kappa)) ^ 2) = 1 := by
  rw [Real.sq_sqrt hpos.le]
  have : (n : ℝ) + (alpha * alpha * (n + kappa) - n) = alpha * alpha * (n + kappa) := by ring
  rw [this]
  have := hpos.ne'
  generalize alpha * alpha * (n + kappa) = c at *
  field_simp

private theorem mean_cubic {alpha kappa : ℝ} (hpos : 0 < alpha * alpha * (n + kappa)) {P L : Matrix (Fin n) (Fin n) ℝ} (hP : P.PosSemidef)
    (hL : Lᵀ * L = P) (μ : Fin n → ℝ) (q : Cubic n) :
    ∑ l, UT.meanWeights n alpha kappa l * q.eval (sigmaMat μ L (Real.sqrt (alpha * alpha * (n + kappa))) l) = expect μ P q.eval := by
  rw [q.expect_eval hP]
  have hs := sum_meanWeights hpos.ne'
  have h2 := two_w hpos
  set s := Real.sqrt (alpha * alpha * (n + kappa)) with hsd
  rw [sum_ut] at hs ⊢
  simp only [sigmaMat_centre, sigmaMat_plus, sigmaMat_minus, UT.meanWeights] at hs ⊢
  simp only [Fin.val_castAdd, Fin.val_natAdd, Fin.val_zero, if_true, Nat.add_eq_zero_iff, one_ne_zero, false_and, if_false] at hs ⊢
  set w := 1 / (2 * ((n : ℝ) + (alpha * alpha * (n + kappa) - n))) with hw
  have hev : ∀ r : Fin n, w * q.eval (fun j => μ j + s * L r j) + w * q.eval (fun j => μ j - s * L r j) =
      2 * w * q.eval μ + q.curv μ fun i j => 2 * w * s ^ 2 * (L r i * L r j) := fun r => by
    have := q.even_part μ (fun j => s * L r j)
    have e : (q.curv μ fun i j => 2 * w * s ^ 2 * (L r i * L r j)) = w * (2 * q.curv μ fun i j => s * L r i * (s * L r j)) := by
      rw [← mul_assoc, mul_comm w 2, ← q.curv_smul]
      congr 1; funext i j; ring
    rw [e]
    simp only [Pi.add_def, Pi.sub_def] at this
    linear_combination w * this
  have hP' : (fun i j => P i j) = fun i j => ∑ r, 2 * w * s ^ 2 * (L r i * L r j) := by
    funext i j
    rw [← hL, Matrix.mul_apply]
    exact Finset.sum_congr rfl fun r _ => by rw [h2, one_mul, transpose_apply]
  rw [hP', q.curv_sum, add_assoc, ← Finset.sum_add_distrib, Finset.sum_congr rfl fun r _ => hev r, Finset.sum_add_distrib,
    Finset.sum_const] 
  simp only [Finset.sum_const, Finset.card_univ, Fintype.card_fin, nsmul_eq_mul] at hs ⊢
  linear_combination q.eval μ * hs

private theorem cross_quadratic {alpha beta kappa : ℝ} (hpos : 0 < alpha * alpha * (n + kappa)) {P L : Matrix (Fin n) (Fin n) ℝ}
    (hP : P.PosSemidef) (hL : Lᵀ * L = P) (μ : Fin n → ℝ) (q : Cubic n) (hq : q.Quadratic) (i : Fin n) :
    ∑ l, UT.covWeights n alpha beta kappa l * (sigmaMat μ L (Real.sqrt (alpha * alpha * (n + kappa))) l i - μ i) *
      (q.eval (sigmaMat μ L (Real.sqrt (alpha * alpha * (n + kappa))) l) - expect μ P q.eval) =
      expect μ P (fun x => (x i - μ i) * (q.eval x - expect μ P q.eval)) := by
  rw [q.expect_cross hq hP]
  have h2 := two_w hpos
  set s := Real.sqrt (alpha * alpha * (n + kappa)) with hsd
  set E := expect μ P q.eval
  rw [sum_ut]
  simp only [sigmaMat_centre, sigmaMat_plus, sigmaMat_minus, UT.covWeights]
  simp only [Fin.val_castAdd, Fin.val_natAdd, Fin.val_zero, if_true, Nat.add_eq_zero_iff, one_ne_zero, false_and, if_false]
  set w := 1 / (2 * ((n : ℝ) + (alpha * alpha * (n + kappa) - n))) with hw
  have hev : ∀ r : Fin n, w * (μ i + s * L r i - μ i) * (q.eval (fun j => μ j + s * L r j) - E) +
      w * (μ i - s * L r i - μ i) * (q.eval (fun j => μ j - s * L r j) - E) =
      q.slope μ fun l => 2 * w * s ^ 2 * (L r i * L r l) := fun r => by
    have := q.odd_part hq μ (fun j => s * L r j)
    have e : (q.slope μ fun l => 2 * w * s ^ 2 * (L r i * L r l)) = w * s * L r i * (2 * q.slope μ fun j => s * L r j) := by
      rw [← mul_assoc, ← q.slope_smul]
      congr 1; funext i; ring
    rw [e]
    simp only [Pi.add_def, Pi.sub_def] at this
    linear_combination w * s * L r i * this
  have hP' : (fun l => P i l) = fun l => ∑ r, 2 * w * s ^ 2 * (L r i * L r l) := by
    funext l
    rw [← hL, Matrix.mul_apply]
    exact Finset.sum_congr rfl fun r _ => by rw [h2, one_mul, transpose_apply]
  rw [hP', q.slope_sum, add_assoc, ← Finset.sum_add_distrib, Finset.sum_congr rfl fun r _ => hev r]
  ring

/-- **C68.** Whatever the parameters (with `alpha² (n + kappa) > 0`) and the dimension, the unscented mean of a function whose components
are polynomials of degree at most three is the exact expectation under the Gaussian; if the degree is at most two, so is the
covariance of argument and value. -/
theorem C68_unscented_polynomials {alpha beta kappa : ℝ} {u : UT} (hu : UT.init n alpha beta kappa = .ok u)
    (hpos : 0 < alpha ^ 2 * (n + kappa)) {g : Gaussian} {μ : Fin n → ℝ} {P : Matrix (Fin n) (Fin n) ℝ} (hg : HasMoments env g μ P)
    (hP : P.PosDef) {func : Func} {q : Fin k → Cubic n} (hf : OnRows func fun x j => (q j).eval x) :
    ∃ (S : Matrix (Fin k) (Fin k) ℝ) (C : Matrix (Fin n) (Fin k) ℝ),
      u.transform env func g = .ok (.v fun j => expect μ P (q j).eval, .m S, .m C) ∧
      ∀ j, (q j).Quadratic → ∀ i, C i j = expect μ P fun x => (x i - μ i) * ((q j).eval x - expect μ P (q j).eval) := by
  obtain ⟨Y, σ, hσ, hY, h⟩ := ut_rows hu hpos hg hP hf
  have hpos' : 0 < alpha * alpha * (n + kappa) := by rwa [← sq]
  have hL := (cholU_spec hP).mul_eq
  have hm : UT.meanWeights n alpha kappa ᵥ* Y = fun j => expect μ P (q j).eval := by
    funext j
    rw [← mean_cubic hpos' hP.posSemidef hL μ (q j), vecMul, dotProduct]
    simp only [hY, of_apply, hσ]
  rw [hm] at h
  refine ⟨_, _, h, fun j hj i => ?_⟩
  rw [← cross_quadratic (beta := beta) hpos' hP.posSemidef hL μ (q j) hj i]
  simp only [hY, of_apply, hσ]

/-- The mean of `x y²` under `N((1, 1), diag(2, 3))`. -/
example : ∃ u S C, UT.init 2 1 2 1 = .ok u ∧ u.transform calmEnv (rowsFunc fun (x : Fin 2 → ℝ) (_ : Fin 1) => x 0 * x 1 * x 1)
    (Gaussian.ofMoment (.v ![1, 1]) (.m (diagonal ![2, 3]))) = .ok (.v (n := 1) fun _ => 4, S, C) := by
  obtain ⟨u, h, -⟩ := (C14_unscented_weights 2 1 2 1).2 (by norm_num)
  let q : Cubic 2 := ⟨0, fun _ => 0, fun _ _ => 0, fun i j l => if i = 0 ∧ j = 1 ∧ l = 1 then 1 else 0⟩
  have e : (fun (x : Fin 2 → ℝ) (_ : Fin 1) => x 0 * x 1 * x 1) = fun x (_ : Fin 1) => q.eval x := by
    funext x _
    simp [q, Cubic.eval, Fin.sum_univ_two]
  obtain ⟨S, C, h1, -⟩ := C68_unscented_polynomials (env := calmEnv) h (by norm_num) (hasMoments_ofMoment calmEnv ![1, 1] _) posDef_two
    (func := rowsFunc fun (x : Fin 2 → ℝ) (_ : Fin 1) => x 0 * x 1 * x 1) (q := fun _ : Fin 1 => q) (by rw [e]; exact rowsFunc_onRows _)
  refine ⟨u, .m S, .m C, h, h1.trans ?_⟩
  simp only [q.expect_eval posDef_two.posSemidef]
  congr 4
  simp [q, Cubic.eval, Cubic.curv, Fin.sum_univ_two]
  norm_num

/-- **C68.** The covariance is a different matter. In one dimension the unscented variance of a quadratic polynomial with second-order
coefficient `M` differs from the true variance by exactly `(alpha² kappa + beta - 2) M² p²`. -/
theorem C68_unscented_variance {alpha beta kappa : ℝ} {u : UT} (hu : UT.init 1 alpha beta kappa = .ok u)
    (hpos : 0 < alpha ^ 2 * (1 + kappa)) {g : Gaussian} {μ : Fin 1 → ℝ} {P : Matrix (Fin 1) (Fin 1) ℝ} (hg : HasMoments env g μ P)
    (hP : P.PosDef) {func : Func} {q : Cubic 1} (hq : q.Quadratic) (hf : OnRows func fun x (_ : Fin 1) => q.eval x) :
    ∃ C, u.transform env func g = .ok (.v (v1 (expect μ P q.eval)), .m (m1 (expect μ P (fun x => (q.eval x - expect μ P q.eval) ^ 2) +
      (alpha ^ 2 * kappa + beta - 2) * q.M 0 0 ^ 2 * P 0 0 ^ 2)), C) := by
  obtain ⟨Y, σ, hσ, hY, h⟩ := ut_rows hu (by exact_mod_cast hpos) hg hP hf
  have hpos' : 0 < alpha * alpha * (((1 : ℕ) : ℝ) + kappa) := by push_cast; rwa [← sq]
  have hL := (cholU_spec hP).mul_eq
  have hm : UT.meanWeights 1 alpha kappa ᵥ* Y = fun _ => expect μ P q.eval := by
    funext j
    rw [← mean_cubic hpos' hP.posSemidef hL μ q, vecMul, dotProduct]
    simp only [hY, of_apply, hσ]
  rw [hm] at h
  refine ⟨_, h.trans (congrArg (fun A => Except.ok (_, Arr.m A, _)) ?_)⟩
  rw [m1_ext (of _)]
  congr 1
  simp only [of_apply, hY, hσ]
  have hE : expect μ P q.eval = q.eval μ + q.M 0 0 * P 0 0 := by
    rw [q.expect_eval hP.posSemidef]
    simp [Cubic.curv, hq 0 0 0]
  have hdev : ∀ x : Fin 1 → ℝ, q.eval x - expect μ P q.eval =
      (q.a 0 + 2 * q.M 0 0 * μ 0) * (x 0 - μ 0) + q.M 0 0 * ((x 0 - μ 0) ^ 2 - P 0 0) := fun x => by
    rw [hE]
    simp only [Cubic.eval, Finset.univ_unique, Fin.default_eq_zero, Finset.sum_singleton, hq 0 0 0]
    ring
  have hL0 : cholU hP 0 0 ^ 2 = P 0 0 := by
    have := congrFun (congrFun hL 0) 0
    simp only [Matrix.mul_apply, transpose_apply, Finset.univ_unique, Fin.default_eq_zero, Finset.sum_singleton] at this
    rw [sq]; exact this
  have hs : Real.sqrt (alpha * alpha * (((1 : ℕ) : ℝ) + kappa)) ^ 2 = alpha * alpha * (1 + kappa) := by
    rw [Real.sq_sqrt hpos'.le]; push_cast; ring
  rw [q.expect_variance hq μ hP.posSemidef]
  simp only [hdev]
  rw [sum_ut]
  simp only [sigmaMat_centre, sigmaMat_plus, sigmaMat_minus, UT.covWeights]
  simp only [Fin.val_castAdd, Fin.val_natAdd, Fin.val_zero, if_true, Nat.add_eq_zero_iff, one_ne_zero, false_and, if_false,
    Finset.univ_unique, Fin.default_eq_zero, Finset.sum_singleton, Nat.cast_one]
  have hs' : Real.sqrt (alpha * alpha * (1 + kappa)) ^ 2 = alpha * alpha * (1 + kappa) := by simpa using hs
  have hc0 : alpha * alpha * (1 + kappa) ≠ 0 := by simpa using hpos'.ne'
  generalize Real.sqrt (alpha * alpha * (1 + kappa)) = s at *
  generalize cholU hP 0 0 = L at *
  generalize q.a 0 + 2 * q.M 0 0 * μ 0 = b at *
  generalize q.M 0 0 = M at *
  rw [← hL0]
  have hk : alpha ^ 2 * kappa = s ^ 2 - alpha ^ 2 := by rw [hs']; ring
  have hs0 : s ≠ 0 := fun h => hc0 (by rw [← hs', h]; ring)
  rw [hk, ← hs']
  field_simp
  ring

/-- The measurement `x² / 20` of the growth model as a polynomial. -/
noncomputable def growthQ : Cubic 1 := ⟨0, fun _ => 0, fun _ _ => 1 / 20, fun _ _ _ => 0⟩

theorem growthQ_eval : growthQ.eval = fun x => x 0 ^ 2 / 20 := by
  funext x
  simp only [growthQ, Cubic.eval, Finset.univ_unique, Fin.default_eq_zero, Finset.sum_singleton]
  ring

theorem growthQ_rows (t u : Option ℝ) : OnRows (fun x => UNGM.h x t u) fun x (_ : Fin 1) => growthQ.eval x := by
  intro N X
  simp only [UNGM.h, Arr.map, growthQ, Cubic.eval, Finset.univ_unique, Fin.default_eq_zero, Finset.sum_singleton]
  congr 2
  ext i j
  rw [Subsingleton.elim j 0]
  simp only [of_apply]
  ring

/-- **C68.** The growth experiment predicts its measurement `x² / 20` with `alpha = 1`, `beta = 2`, `kappa = 2`: mean and
cross-covariance are exact, but of the true variance `m² p / 100 + p² / 200` the second term is counted twice. -/
theorem C68_growth_measurement {u : UT} (hu : UT.init 1 1 2 2 = .ok u) {g : Gaussian} {m p : ℝ} (hp : 0 < p)
    (hg : HasMoments env g (v1 m) (m1 p)) (t c : Option ℝ) :
    u.transform env (fun x => UNGM.h x t c) g = .ok (.v (v1 (expect (v1 m) (m1 p) fun x => x 0 ^ 2 / 20)),
      .m (m1 (expect (v1 m) (m1 p) (fun x => (x 0 ^ 2 / 20 - expect (v1 m) (m1 p) fun x => x 0 ^ 2 / 20) ^ 2) + p ^ 2 / 200)),
      .m (m1 (expect (v1 m) (m1 p) fun x => (x 0 - m) * (x 0 ^ 2 / 20 - expect (v1 m) (m1 p) fun x => x 0 ^ 2 / 20)))) ∧
    expect (v1 m) (m1 p) (fun x => (x 0 ^ 2 / 20 - expect (v1 m) (m1 p) fun x => x 0 ^ 2 / 20) ^ 2) = m ^ 2 * p / 100 + p ^ 2 / 200 := by
  have hP : (m1 p).PosDef := m1_posDef.2 hp
  have hq : growthQ.Quadratic := fun _ _ _ => rfl
  have e := growthQ_eval
  obtain ⟨C, h1⟩ := C68_unscented_variance (env := env) hu (by norm_num) hg hP hq (growthQ_rows t c)
  obtain ⟨S, C', h2, h3⟩ := C68_unscented_polynomials (env := env) hu (by norm_num) hg hP (q := fun _ : Fin 1 => growthQ) (growthQ_rows t c)
  have hC : C = .m C' := by
    have := h1.symm.trans h2
    simp only [Except.ok.injEq, Prod.mk.injEq] at this
    exact this.2.2
  have h4 := h3 0 hq 0
  have h5 := growthQ.expect_variance hq (v1 m) hP.posSemidef
  rw [e] at h1 h4 h5
  refine ⟨?_, ?_⟩
  · rw [h1, hC, m1_ext C', h4]
    have : ((1 : ℝ) ^ 2 * 2 + 2 - 2) * growthQ.M 0 0 ^ 2 * m1 p 0 0 ^ 2 = p ^ 2 / 200 := by simp only [growthQ, m1_apply]; ring
    rw [this]
    rfl
  · rw [h5]
    simp only [growthQ, m1_apply, v1_apply]; ring

example : ∃ u, UT.init 1 1 2 2 = .ok u ∧ ∃ m C, u.transform calmEnv (fun x => UNGM.h x none none) (sG 4 10) = .ok (m, .m (m1 2.6), C) := by
  obtain ⟨u, h, -⟩ := (C14_unscented_weights 1 1 2 2).2 (by norm_num)
  obtain ⟨h1, h2⟩ := C68_growth_measurement h (by norm_num) (sG_moments calmEnv 4 10) none none
  rw [h2, show (4 : ℝ) ^ 2 * 10 / 100 + 10 ^ 2 / 200 + 10 ^ 2 / 200 = 2.6 by norm_num] at h1
  exact ⟨u, h, _, _, h1⟩

end Verif
