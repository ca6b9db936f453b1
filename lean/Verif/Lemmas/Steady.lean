import Verif.Lemmas.Order
import Mathlib.Topology.Instances.Matrix
import Mathlib.Analysis.SpecificLimits.Basic

/-! Convergence of the covariances of filter and smoother. -/

namespace Verif

open Matrix Filter Topology

variable {n k : ℕ}

/-- Prediction and update of the covariance. -/
noncomputable def ric (A Q : Matrix (Fin n) (Fin n) ℝ) (H : Matrix (Fin k) (Fin n) ℝ) (R : Matrix (Fin k) (Fin k) ℝ) (P : Matrix (Fin n) (Fin n) ℝ) :
    Matrix (Fin n) (Fin n) ℝ := condCov (A * P * Aᵀ + Q) H R

/-- A model with constant coefficients and the prior covariance `P`. -/
def constModel (A Q : Matrix (Fin n) (Fin n) ℝ) (H : Matrix (Fin k) (Fin n) ℝ) (R : Matrix (Fin k) (Fin k) ℝ) (P : Matrix (Fin n) (Fin n) ℝ) :
    StateSpace n k := ⟨0, P, fun _ => A, fun _ => 0, Q, fun _ => H, fun _ => 0, R⟩

variable {A Q P P' X : Matrix (Fin n) (Fin n) ℝ} {H : Matrix (Fin k) (Fin n) ℝ} {R : Matrix (Fin k) (Fin k) ℝ}

/-- The covariances of any model with these coefficients. -/
theorem filt_ric {L : StateSpace n k} (hA : ∀ i, L.A i = A) (hH : ∀ i, L.H i = H) (y : ℕ → Fin k → ℝ) : ∀ i,
    (L.filt y i).2 = (ric A L.Q H L.R)^[i] L.P0
  | 0 => rfl
  | i + 1 => by
    rw [Function.iterate_succ_apply', ← filt_ric hA hH y i, StateSpace.filt, ric, hA, hH]

theorem ric_iterate_posDef (hQ : Q.PosDef) (hR : R.PosDef) (hP : P.PosDef) (i : ℕ) : ((ric A Q H R)^[i] P).PosDef := by
  have hL : (constModel A Q H R P).Good := ⟨hP, hQ, hR⟩
  have := hL.filt (y := 0) i
  rwa [filt_ric (fun _ => rfl) fun _ => rfl] at this

open StateSpace in
theorem ric_forget (hQ : Q.PosDef) (hR : R.PosDef) (hdet : Detectable A Q H R) (hP : P.PosDef) (hP' : P'.PosDef) :
    ∃ ρ κ, 0 < ρ ∧ ρ < 1 ∧ ∀ i j l, |(ric A Q H R)^[i] P j l - (ric A Q H R)^[i] P' j l| ≤ κ * ρ ^ i := by
  have hL : (constModel A Q H R P).Good := ⟨hP, hQ, hR⟩
  obtain ⟨ρ, κ, h0, h1, h⟩ := hL.forget (A := A) (b := 0) (H := H) (c := 0) (fun _ => rfl) (fun _ => rfl) (fun _ => rfl) (fun _ => rfl) hdet 0 hP' 0
  refine ⟨ρ, κ, h0, h1, fun i j l => ?_⟩
  have h2 := (h 0 (fun _ => by simp) i).2 j l
  rwa [filt_ric (fun _ => rfl) (fun _ => rfl), filt_ric (fun _ => rfl) fun _ => rfl] at h2

theorem tendsto_inv {p : ℕ} {M : ℕ → Matrix (Fin p) (Fin p) ℝ} {M₀ : Matrix (Fin p) (Fin p) ℝ} (h : Tendsto M atTop (𝓝 M₀)) (h0 : M₀.det ≠ 0) :
    Tendsto (fun i => (M i)⁻¹) atTop (𝓝 M₀⁻¹) := by
  have hd : Tendsto (fun i => (M i).det) atTop (𝓝 M₀.det) := (Continuous.matrix_det continuous_id).continuousAt.tendsto.comp h
  have ha : Tendsto (fun i => (M i).adjugate) atTop (𝓝 M₀.adjugate) := (Continuous.matrix_adjugate continuous_id).continuousAt.tendsto.comp h
  simp only [Matrix.inv_def, Ring.inverse_eq_inv']
  exact (hd.inv₀ h0).smul ha

theorem tendsto_ric (hQ : Q.PosDef) (hR : R.PosDef) {M : ℕ → Matrix (Fin n) (Fin n) ℝ} (h : Tendsto M atTop (𝓝 X)) (hX : X.PosSemidef) :
    Tendsto (fun i => ric A Q H R (M i)) atTop (𝓝 (ric A Q H R X)) := by
  have c1 : Tendsto (fun i => A * M i * Aᵀ + Q) atTop (𝓝 (A * X * Aᵀ + Q)) :=
    (Continuous.add (Continuous.matrix_mul (Continuous.matrix_mul continuous_const continuous_id) continuous_const)
      continuous_const).continuousAt.tendsto.comp h
  have hM : (A * X * Aᵀ + Q).PosDef := innov_posDef hX hQ A
  have hS := innov_posDef hM.posSemidef hR H
  have c2 : Tendsto (fun i => H * (A * M i * Aᵀ + Q) * Hᵀ + R) atTop (𝓝 (H * (A * X * Aᵀ + Q) * Hᵀ + R)) :=
    (Continuous.add (Continuous.matrix_mul (Continuous.matrix_mul continuous_const continuous_id) continuous_const)
      continuous_const).continuousAt.tendsto.comp c1
  have c3 := tendsto_inv c2 hS.det_pos.ne'
  have c4 : Tendsto (fun i => (A * M i * Aᵀ + Q) * Hᵀ) atTop (𝓝 ((A * X * Aᵀ + Q) * Hᵀ)) :=
    (Continuous.matrix_mul continuous_id continuous_const).continuousAt.tendsto.comp c1
  have mul : ∀ {a b c : ℕ} {F : ℕ → Matrix (Fin a) (Fin b) ℝ} {G : ℕ → Matrix (Fin b) (Fin c) ℝ} {F₀ G₀}, Tendsto F atTop (𝓝 F₀) →
      Tendsto G atTop (𝓝 G₀) → Tendsto (fun i => F i * G i) atTop (𝓝 (F₀ * G₀)) := fun {a b c F G F₀ G₀} hF hG =>
    ((Continuous.matrix_mul continuous_fst continuous_snd).continuousAt (x := (F₀, G₀))).tendsto.comp (hF.prodMk_nhds hG)
  have c5 : Tendsto (fun i => ((A * M i * Aᵀ + Q) * Hᵀ)ᵀ) atTop (𝓝 ((A * X * Aᵀ + Q) * Hᵀ)ᵀ) :=
    (Continuous.matrix_transpose continuous_id).continuousAt.tendsto.comp c4
  exact c1.sub (mul (mul c4 c3) c5)

/-- The covariances converge to a fixed point. -/
theorem exists_steady (hQ : Q.PosDef) (hR : R.PosDef) (hdet : StateSpace.Detectable A Q H R) : ∃ X, X.PosDef ∧ ric A Q H R X = X := by
  have hP : (1 : Matrix (Fin n) (Fin n) ℝ).PosDef := PosDef.one
  set M : ℕ → Matrix (Fin n) (Fin n) ℝ := fun i => (ric A Q H R)^[i] 1 with hM
  obtain ⟨ρ, κ, h0, h1, h⟩ := ric_forget hQ hR hdet hP (ric_iterate_posDef hQ hR hP 1)
  have hc : ∀ j l, ∃ a, Tendsto (fun i => M i j l) atTop (𝓝 a) := fun j l =>
    cauchySeq_tendsto_of_complete (cauchySeq_of_le_geometric ρ κ h1 fun i => by
      rw [Real.dist_eq, hM]
      have := h i j l
      rwa [← Function.iterate_add_apply] at this)
  choose X hX using hc
  have hlim : Tendsto M atTop (𝓝 (of X)) := tendsto_pi_nhds.2 fun j => tendsto_pi_nhds.2 fun l => hX j l
  have hq : ∀ u, Tendsto (fun i => quad (M i) u) atTop (𝓝 (quad (of X) u)) := fun u =>
    ((continuous_const.dotProduct (Continuous.matrix_mulVec continuous_id continuous_const)).continuousAt).tendsto.comp hlim
  have hpos : (of X).PosSemidef := posSemidef_iff_quad.2 ⟨by
    ext j l
    refine tendsto_nhds_unique (hX l j) ((hX j l).congr fun i => ?_)
    exact congrFun (congrFun (posDef_symm (ric_iterate_posDef (A := A) (H := H) hQ hR hP i)) l) j, fun u =>
    ge_of_tendsto' (hq u) fun i => quad_nonneg (ric_iterate_posDef hQ hR hP i).posSemidef u⟩
  have hfix : ric A Q H R (of X) = of X := by
    refine tendsto_nhds_unique (tendsto_ric hQ hR hlim hpos) ?_
    have := hlim.comp (tendsto_add_atTop_nat 1)
    refine this.congr fun i => ?_
    simp only [hM, Function.comp_apply, Function.iterate_succ_apply']
  refine ⟨of X, ?_, hfix⟩
  rw [← hfix]
  exact condCov_posDef (innov_posDef hpos hQ A) hR H

theorem steady_unique (hQ : Q.PosDef) (hR : R.PosDef) (hdet : StateSpace.Detectable A Q H R) {X X' : Matrix (Fin n) (Fin n) ℝ} (hX : X.PosDef)
    (hX' : X'.PosDef) (h : ric A Q H R X = X) (h' : ric A Q H R X' = X') : X = X' := by
  obtain ⟨ρ, κ, h0, h1, hf⟩ := ric_forget hQ hR hdet hX hX'
  ext j l
  have ht : Tendsto (fun i : ℕ => κ * ρ ^ i) atTop (𝓝 0) := by
    simpa using (tendsto_pow_atTop_nhds_zero_of_lt_one h0.le h1).const_mul κ
  have : |X j l - X' j l| ≤ 0 := ge_of_tendsto' ht fun i => by
    have := hf i j l
    rwa [Function.iterate_fixed h, Function.iterate_fixed h'] at this
  exact sub_eq_zero.1 (abs_nonpos_iff.1 this)

/-! ### Later measurements -/

namespace StateSpace

variable {L : StateSpace n k}

/-- The smoother gain shrinks in units of the covariance. -/
theorem Good.quad_gain (h : L.Good) (i : ℕ) {θ : ℝ} (hθ0 : 0 ≤ θ)
    (hθ : ∀ v, quad (L.A i * L.fcov i * (L.A i)ᵀ) v ≤ θ * quad (L.A i * L.fcov i * (L.A i)ᵀ + L.Q) v) (u : Fin n → ℝ) :
    quad (L.fcov (i + 1)) ((L.sgain i)ᵀ *ᵥ u) ≤ θ * quad (L.fcov i) u := by
  have hM : (L.A i * L.fcov i * (L.A i)ᵀ + L.Q).PosDef := h.pcov i
  have hP := h.fcov i
  have e : (L.sgain i)ᵀ *ᵥ u = (L.A i * L.fcov i * (L.A i)ᵀ + L.Q)⁻¹ *ᵥ (L.A i *ᵥ (L.fcov i *ᵥ u)) := by
    rw [sgain, gainMat, transpose_mul, transpose_mul, transpose_transpose, posDef_inv_symm hM, posDef_symm hP, mulVec_mulVec, mulVec_mulVec]
    simp only [Matrix.mul_assoc]
  refine (condCov_le' hM h.R (L.H i) _).trans ?_
  rw [e]
  set M := L.A i * L.fcov i * (L.A i)ᵀ + L.Q with hMd
  set v := M⁻¹ *ᵥ (L.A i *ᵥ (L.fcov i *ᵥ u)) with hv
  have hs : quad M v = ((L.A i)ᵀ *ᵥ v) ⬝ᵥ L.fcov i *ᵥ u := by
    have e2 : M *ᵥ v = L.A i *ᵥ (L.fcov i *ᵥ u) := by rw [hv, mulVec_mulVec (v := L.A i *ᵥ (L.fcov i *ᵥ u)), posDef_mul_inv hM, one_mulVec]
    rw [quad, e2, dotProduct_mulVec, ← mulVec_transpose]
  have hc := quad_cauchy hP.posSemidef ((L.A i)ᵀ *ᵥ v) u
  rw [← hs, ← quad_congr'] at hc
  have h1 := hθ v
  have h2 := quad_nonneg hM.posSemidef v
  have h3 := quad_nonneg hP.posSemidef u
  by_contra hlt
  push Not at hlt
  have h4 : 0 < quad M v := lt_of_le_of_lt (mul_nonneg hθ0 h3) hlt
  have h5 : quad M v ^ 2 ≤ θ * quad M v * quad (L.fcov i) u := hc.trans (mul_le_mul_of_nonneg_right h1 h3)
  nlinarith

theorem smth_succ_cov (i d : ℕ) : (StateSpace.smth L 0 i (d + 1)).2 =
    L.sgain i * (StateSpace.smth L 0 (i + 1) d).2 * (L.sgain i)ᵀ + condCov (L.fcov i) (L.A i) L.Q := rfl

theorem Good.lag_cov (h : L.Good) {θ : ℝ} (hθ0 : 0 ≤ θ)
    (hθ : ∀ i v, quad (L.A i * L.fcov i * (L.A i)ᵀ) v ≤ θ * quad (L.A i * L.fcov i * (L.A i)ᵀ + L.Q) v) : ∀ d i d', d ≤ d' → ∀ u,
    quad (StateSpace.smth L 0 i d).2 u - quad (StateSpace.smth L 0 i d').2 u ≤ θ ^ d * quad (L.fcov i) u
  | 0, i, d', _, u => by
    have := quad_nonneg (h.smth (y := 0) d' i).posSemidef u
    rw [pow_zero, one_mul]
    have e : quad (StateSpace.smth L 0 i 0).2 u = quad (L.fcov i) u := rfl
    linarith
  | d + 1, i, 0, hd, u => by omega
  | d + 1, i, d' + 1, hd, u => by
    rw [smth_succ_cov, smth_succ_cov, quad_add_mat, quad_add_mat, quad_congr', quad_congr', add_sub_add_right_eq_sub]
    refine (Good.lag_cov h hθ0 hθ d (i + 1) d' (by omega) _).trans ?_
    rw [pow_succ, mul_assoc]
    exact mul_le_mul_of_nonneg_left (h.quad_gain i hθ0 (hθ i) u) (pow_nonneg hθ0 d)

/-- The effect of the smoother gain on a difference of means. -/
theorem Good.within_gain (h : L.Good) (i : ℕ) {ρ : ℝ} (hρ : 0 ≤ ρ)
    (hθ : ∀ v, quad (L.A i * L.fcov i * (L.A i)ᵀ) v ≤ ρ ^ 2 * quad (L.A i * L.fcov i * (L.A i)ᵀ + L.Q) v) {D : ℝ} (hD : 0 ≤ D) {d : Fin n → ℝ}
    (hd : Within D d (L.fcov (i + 1))) : Within (ρ * D) (L.sgain i *ᵥ d) (L.fcov i) := fun u => by
  have h1 := h.quad_gain i (sq_nonneg ρ) hθ u
  have e : u ⬝ᵥ L.sgain i *ᵥ d = ((L.sgain i)ᵀ *ᵥ u) ⬝ᵥ d := by rw [dotProduct_mulVec, mulVec_transpose]
  rw [e]
  calc _ ≤ D * √(quad (L.fcov (i + 1)) ((L.sgain i)ᵀ *ᵥ u)) := hd _
    _ ≤ D * √(ρ ^ 2 * quad (L.fcov i) u) := mul_le_mul_of_nonneg_left (Real.sqrt_le_sqrt h1) hD
    _ = _ := by rw [Real.sqrt_mul (sq_nonneg ρ), Real.sqrt_sq hρ]; ring

theorem Good.lag_mean (h : L.Good) {ρ : ℝ} (hρ : 0 ≤ ρ) (hρ1 : ρ < 1)
    (hθ : ∀ i v, quad (L.A i * L.fcov i * (L.A i)ᵀ) v ≤ ρ ^ 2 * quad (L.A i * L.fcov i * (L.A i)ᵀ + L.Q) v) {y : ℕ → Fin k → ℝ} {W : ℝ} (hW : 0 ≤ W)
    (hw : ∀ i, Within W ((StateSpace.filt L y (i + 1)).1 - (L.A i *ᵥ (StateSpace.filt L y i).1 + L.b i)) (L.fcov (i + 1))) : ∀ d i d', d ≤ d' →
    Within (ρ ^ d * (W / (1 - ρ))) ((StateSpace.smth L y i d').1 - (StateSpace.smth L y i d).1) (L.fcov i) := by
  have h1 : 0 < 1 - ρ := by linarith
  have hD : 0 ≤ W / (1 - ρ) := div_nonneg hW h1.le
  have base : ∀ d i, Within (W / (1 - ρ)) ((StateSpace.smth L y i d).1 - (StateSpace.filt L y i).1) (L.fcov i) := by
    intro d
    induction d with
    | zero =>
      intro i u
      rw [show (StateSpace.smth L y i 0).1 = (StateSpace.filt L y i).1 from rfl, sub_self, dotProduct_zero, abs_zero]
      exact mul_nonneg hD (Real.sqrt_nonneg _)
    | succ d ih =>
      intro i
      have h2 := h.within_gain i hρ (hθ i) (add_nonneg hD hW) ((ih (i + 1)).add (hw i))
      have e : (StateSpace.smth L y i (d + 1)).1 - (StateSpace.filt L y i).1 = L.sgain i *ᵥ ((StateSpace.smth L y (i + 1) d).1 -
          (StateSpace.filt L y (i + 1)).1 + ((StateSpace.filt L y (i + 1)).1 - (L.A i *ᵥ (StateSpace.filt L y i).1 + L.b i))) := by
        rw [smth_mean, sub_add_sub_cancel, mulVec_sub]
        abel
      rw [e]
      refine h2.mono ?_
      have h3 : W = (1 - ρ) * (W / (1 - ρ)) := by field_simp
      have h4 : ρ * W ≤ W := mul_le_of_le_one_left hW hρ1.le
      nlinarith
  intro d
  induction d with
  | zero =>
    intro i d' _
    rw [pow_zero, one_mul]
    exact base d' i
  | succ d ih =>
    intro i d' hd
    obtain ⟨d', rfl⟩ : ∃ e, d' = e + 1 := ⟨d' - 1, by omega⟩
    have h2 := h.within_gain i hρ (hθ i) (mul_nonneg (pow_nonneg hρ d) hD) (ih (i + 1) d' (by omega))
    rw [smth_mean, smth_mean, add_sub_add_right_eq_sub, ← mulVec_sub, pow_succ, mul_comm (ρ ^ d), mul_assoc]
    exact h2

variable {b : Fin n → ℝ} {c : Fin k → ℝ}

/-- Later measurements lose their influence at a geometric rate. -/
theorem Good.lag (h : L.Good) (hA : ∀ i, L.A i = A) (hb : ∀ i, L.b i = b) (hH : ∀ i, L.H i = H) (hc : ∀ i, L.c i = c)
    (hO : Detectable A L.Q H L.R) (Y : ℝ) : ∃ ρ κ, 0 < ρ ∧ ρ < 1 ∧ 0 ≤ κ ∧
    (∀ i d d', d ≤ d' → ∀ u, quad (StateSpace.smth L 0 i d).2 u - quad (StateSpace.smth L 0 i d').2 u ≤ κ * ρ ^ d * (u ⬝ᵥ u)) ∧
    ∀ y : ℕ → Fin k → ℝ, (∀ i, ‖y i‖ ≤ Y) → ∀ i d d', d ≤ d' → ‖(StateSpace.smth L y i d').1 - (StateSpace.smth L y i d).1‖ ≤ κ * ρ ^ d := by
  obtain ⟨B, hB, hbd⟩ := h.bounded hA hH hO
  obtain ⟨ρ, hρ, hρ1, hrate⟩ := exists_rate A h.Q hB
  obtain ⟨U, hU, hmean⟩ := h.bounded_mean hA hb hH hc hO Y
  obtain ⟨β, hβ, hβb⟩ := mulVec_bound (Hᵀ * L.R⁻¹)
  obtain ⟨γ, hγ, hγb⟩ := mulVec_bound H
  obtain ⟨α, hα, hαb⟩ := mulVec_bound A
  set V := √(B * (n * (β * (Y + (γ * (α * U + ‖b‖) + ‖c‖))) ^ 2))
  have hV : 0 ≤ V := Real.sqrt_nonneg _
  have h1ρ : 0 < 1 - ρ := by linarith
  have hθ : ∀ i v, quad (L.A i * L.fcov i * (L.A i)ᵀ) v ≤ ρ ^ 2 * quad (L.A i * L.fcov i * (L.A i)ᵀ + L.Q) v := fun i => by
    rw [hA]; exact hrate _ (hbd 0 i)
  refine ⟨ρ, max B (V / (1 - ρ) * √B), hρ, hρ1, hB.trans (le_max_left _ _), fun i d d' hd u => ?_, fun y hy i d d' hd => ?_⟩
  · refine (h.lag_cov (sq_nonneg ρ) hθ d i d' hd u).trans ?_
    calc (ρ ^ 2) ^ d * quad (L.fcov i) u ≤ ρ ^ d * (B * (u ⬝ᵥ u)) := by
          refine mul_le_mul ?_ (hbd 0 i u) (quad_nonneg (h.fcov i).posSemidef u) (pow_nonneg hρ.le d)
          exact pow_le_pow_left₀ (sq_nonneg ρ) (by nlinarith) d
      _ = B * ρ ^ d * (u ⬝ᵥ u) := by ring
      _ ≤ _ := mul_le_mul_of_nonneg_right (mul_le_mul_of_nonneg_right (le_max_left _ _) (pow_nonneg hρ.le d)) (dot_self_nonneg u)
  · have hw : ∀ i, Within V ((StateSpace.filt L y (i + 1)).1 - (L.A i *ᵥ (StateSpace.filt L y i).1 + L.b i)) (L.fcov (i + 1)) := fun i => by
      have hM := h.pred (y := y) i
      have hC := condCov_posDef hM h.R (L.H i)
      have hC' : L.fcov (i + 1) = condCov (L.A i * (StateSpace.filt L y i).2 * (L.A i)ᵀ + L.Q) (L.H i) L.R := L.filt_cov' 0 y (i + 1)
      have e : (StateSpace.filt L y (i + 1)).1 - (L.A i *ᵥ (StateSpace.filt L y i).1 + L.b i) = L.fcov (i + 1) *ᵥ
          (((L.H i)ᵀ * L.R⁻¹) *ᵥ (y i - (L.H i *ᵥ (L.A i *ᵥ (StateSpace.filt L y i).1 + L.b i) + L.c i))) := by
        rw [hC', mulVec_mulVec, ← gain_condCov hM h.R, StateSpace.filt, condMean, add_sub_cancel_left]
      rw [e]
      refine (within_mulVec (h.fcov (i + 1)).posSemidef _).mono (Real.sqrt_le_sqrt ?_)
      refine (hbd 0 (i + 1) _).trans (mul_le_mul_of_nonneg_left ((dot_self_le _).trans ?_) hB)
      refine mul_le_mul_of_nonneg_left (pow_le_pow_left₀ (norm_nonneg _) ?_ 2) (Nat.cast_nonneg _)
      rw [hH, hc, hA, hb]
      refine (hβb _).trans (mul_le_mul_of_nonneg_left ((norm_sub_le _ _).trans (add_le_add (hy i) ?_)) hβ)
      refine (norm_add_le _ _).trans (add_le_add ((hγb _).trans (mul_le_mul_of_nonneg_left ?_ hγ)) le_rfl)
      refine (norm_add_le _ _).trans (add_le_add ((hαb _).trans (mul_le_mul_of_nonneg_left ?_ hα)) le_rfl)
      exact hmean y hy i
    have h2 := Within.norm_le (mul_nonneg (pow_nonneg hρ.le d) (div_nonneg hV h1ρ.le)) (hbd 0 i) (h.lag_mean hρ.le hρ1 hθ hV hw d i d' hd)
    calc _ ≤ _ := h2
      _ = V / (1 - ρ) * √B * ρ ^ d := by ring
      _ ≤ _ := mul_le_mul_of_nonneg_right (le_max_right _ _) (pow_nonneg hρ.le d)

end StateSpace
end Verif
