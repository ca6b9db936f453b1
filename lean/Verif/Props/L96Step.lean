import Verif.Props.L96
import Verif.Lemmas.RungeKutta
import Mathlib.Analysis.SpecialFunctions.ExpDeriv
import Mathlib.Topology.Algebra.Module.FiniteDimension

/-!
# The time step of the Lorenz-96 system (C116)

`f` follows the solutions of the differential equation to fourth order.
-/

namespace Verif

open Matrix Set L96

/-- The Lorenz-96 equation, in the orientation of the code; indices are cyclic. -/
def lorenz (F : ℝ) {c : ℕ} [NeZero c] (x : Fin c → ℝ) (j : Fin c) : ℝ := (x (j - 1) - x (j + 2)) * x (j + 1) - x j + F

/-- `x` solves the equation on `[0, T]`. -/
def LorenzSolution (F : ℝ) {c : ℕ} [NeZero c] (x : ℝ → Fin c → ℝ) (T : ℝ) : Prop :=
  ∀ t ∈ Icc 0 T, HasDerivWithinAt x (lorenz F (x t)) (Icc 0 T) t

variable {c : ℕ} [NeZero c] {F : ℝ} {x : ℝ → Fin c → ℝ} {T : ℝ}

private theorem drift_lorenz (F : ℝ) {r : ℕ} (X : Matrix (Fin r) (Fin c) ℝ) (k : Fin r) : drift F X k = lorenz F (X k) := by
  funext j
  obtain ⟨D, h1, -, h3⟩ := C53_formula F X
  obtain rfl : drift F X = D := Arr.m_inj.1 h1
  refine h3 k j (j - 1) (j + 1) (j + 2) ?_ ?_ ?_
  · conv_lhs => rw [← sub_add_cancel j 1]
    rw [Fin.val_add, Fin.val_one', Nat.add_mod_mod]
  · rw [Fin.val_add, Fin.val_one', Nat.add_mod_mod]
  · rw [Fin.val_add, show ((2 : Fin c) : ℕ) = 2 % c from rfl, Nat.add_mod_mod]

/-- The bilinear part. -/
private noncomputable def bil (c : ℕ) [NeZero c] : (Fin c → ℝ) →ₗ[ℝ] (Fin c → ℝ) →ₗ[ℝ] (Fin c → ℝ) :=
  LinearMap.mk₂ ℝ (fun x y j => ((x (j - 1) - x (j + 2)) * y (j + 1) + (y (j - 1) - y (j + 2)) * x (j + 1)) / 2)
    (fun _ _ _ => funext fun _ => by simp only [Pi.add_apply]; ring) (fun _ _ _ => funext fun _ => by simp only [Pi.smul_apply, smul_eq_mul]; ring)
    (fun _ _ _ => funext fun _ => by simp only [Pi.add_apply]; ring) (fun _ _ _ => funext fun _ => by simp only [Pi.smul_apply, smul_eq_mul]; ring)

/-- The equation as a quadratic field. -/
private noncomputable def field (F : ℝ) (c : ℕ) [NeZero c] : QuadField (Fin c → ℝ) where
  B := LinearMap.toContinuousLinearMap
    ((LinearMap.toContinuousLinearMap : ((Fin c → ℝ) →ₗ[ℝ] (Fin c → ℝ)) ≃ₗ[ℝ] _).toLinearMap ∘ₗ bil c)
  A := -ContinuousLinearMap.id ℝ _
  b := fun _ => F
  symm x y := funext fun j => by
    show ((x (j - 1) - x (j + 2)) * y (j + 1) + (y (j - 1) - y (j + 2)) * x (j + 1)) / 2 =
      ((y (j - 1) - y (j + 2)) * x (j + 1) + (x (j - 1) - x (j + 2)) * y (j + 1)) / 2
    ring

private theorem field_d1 (F : ℝ) (x : Fin c → ℝ) : (field F c).d1 x = lorenz F x := by
  funext j
  show ((x (j - 1) - x (j + 2)) * x (j + 1) + (x (j - 1) - x (j + 2)) * x (j + 1)) / 2 + -x j + F = _
  rw [lorenz]; ring

private theorem solves_iff : (field F c).Solves x T ↔ LorenzSolution F x T := by
  simp only [QuadField.Solves, LorenzSolution, field_d1]

/-- The step as a function of a vector. -/
private theorem f_row (dt F : ℝ) (y : Fin c → ℝ) (t u : Option ℝ) :
    f dt F (.m (r := 1) (of fun _ j => y j)) t u = .ok (.m (r := 1) (of fun _ j => (field F c).rk4 dt y j)) := by
  have hm : ∀ Y : Matrix (Fin 1) (Fin c) ℝ, model F (.m Y) = .m (of fun _ j => lorenz F (Y 0) j) := fun Y => by
    show Arr.m (drift F Y) = _
    congr 1; ext i j
    rw [Subsingleton.elim i 0, drift_lorenz]; rfl
  have hd : ∀ Y : Matrix (Fin 1) (Fin c) ℝ, (Arr.m (dt • Y)).map (· / 2) = .m (of fun i j => dt * Y i j / 2) := fun _ => rfl
  simp only [f, hm, Arr.smul_m, hd, Arr.add_mm, ok_bind]
  congr 2
  ext i j
  rw [Subsingleton.elim i 0]
  simp only [QuadField.rk4, QuadField.incr, field_d1, Matrix.add_apply, Matrix.smul_apply, of_apply, Pi.add_apply, Pi.smul_apply, smul_eq_mul]
  have a1 : ∀ z : Fin c → ℝ, ((of fun _ j => y j) + (of fun _ j => dt * z j / 2) : Matrix (Fin 1) (Fin c) ℝ) 0 = y + (dt / 2) • z := fun z => by
    funext k; simp only [Matrix.add_apply, of_apply, Pi.add_apply, Pi.smul_apply, smul_eq_mul]; ring
  have a2 : ∀ z : Fin c → ℝ, ((of fun _ j => y j) + dt • (of fun _ j => z j) : Matrix (Fin 1) (Fin c) ℝ) 0 = y + dt • z := fun z => by
    funext k; simp only [Matrix.add_apply, Matrix.smul_apply, of_apply, Pi.add_apply, Pi.smul_apply, smul_eq_mul]
  have a0 : (of fun _ j => y j : Matrix (Fin 1) (Fin c) ℝ) 0 = y := rfl
  simp only [a0, a1, a2]
  ring

private theorem f_vec (dt F : ℝ) (y : Fin c → ℝ) (t u : Option ℝ) :
    f dt F (.v y) t u = .ok (.m (r := 1) (of fun _ j => (field F c).rk4 dt y j)) := by
  obtain ⟨Y, h1, h2⟩ := C53_step_rows dt F (of fun (_ : Fin 1) j => y j) t u
  rw [f_row] at h1
  rw [show Arr.v y = .v ((of fun (_ : Fin 1) j => y j) 0) from rfl, h2 0, ← Arr.m_inj.1 (Except.ok.inj h1)]
  rfl

/-! ## Energy -/

private theorem energy_drift (F : ℝ) (y : Fin c → ℝ) : ∑ j, y j * lorenz F y j = F * ∑ j, y j - ∑ j, y j ^ 2 := by
  have := C53_energy F (of fun (_ : Fin 1) j => y j) (drift F (of fun (_ : Fin 1) j => y j)) rfl 0
  rw [drift_lorenz] at this
  exact this

/-- **C116.** The energy of a solution decays to the level set by the forcing. -/
theorem C116_energy (hx : LorenzSolution F x T) (t : ℝ) (ht : t ∈ Icc 0 T) :
    ∑ j, x t j ^ 2 ≤ Real.exp (-t) * ∑ j, x 0 j ^ 2 + (1 - Real.exp (-t)) * (c * F ^ 2) := by
  set φ : ℝ → ℝ := fun s => Real.exp s * (∑ j, x s j ^ 2 - c * F ^ 2) with hφ
  have hd : ∀ s ∈ Icc 0 T, HasDerivWithinAt φ (Real.exp s * (∑ j, x s j ^ 2 - c * F ^ 2) + Real.exp s * ∑ j, 2 * (x s j * lorenz F (x s) j))
      (Icc 0 T) s := by
    intro s hs
    have h1 : ∀ j, HasDerivWithinAt (fun z => x z j ^ 2) (2 * (x s j * lorenz F (x s) j)) (Icc 0 T) s := fun j =>
      (((hasDerivWithinAt_pi.1 (hx s hs) j).pow 2).congr_deriv (by push_cast; ring))
    have h2 : HasDerivWithinAt (fun z => ∑ j, x z j ^ 2) (∑ j, 2 * (x s j * lorenz F (x s) j)) (Icc 0 T) s :=
      HasDerivWithinAt.fun_sum fun j _ => h1 j
    exact (Real.hasDerivAt_exp s).hasDerivWithinAt.mul (h2.sub_const _)
  have hanti : AntitoneOn φ (Icc 0 T) := by
    refine antitoneOn_of_hasDerivWithinAt_nonpos (convex_Icc 0 T) (fun s hs => (hd s hs).continuousWithinAt)
      (fun s hs => (hd s (interior_subset hs)).mono interior_subset) fun s hs => ?_
    rw [← Finset.mul_sum, energy_drift, ← mul_add]
    refine mul_nonpos_of_nonneg_of_nonpos (Real.exp_pos s).le ?_
    have : ∑ j, (2 * F * x s j - x s j ^ 2 - F ^ 2) ≤ 0 := Finset.sum_nonpos fun j _ => by nlinarith [sq_nonneg (x s j - F)]
    rw [Finset.sum_sub_distrib, Finset.sum_sub_distrib, ← Finset.mul_sum, Finset.sum_const, Finset.card_univ, Fintype.card_fin, nsmul_eq_mul] at this
    linarith
  have h := hanti ⟨le_rfl, ht.1.trans ht.2⟩ ht ht.1
  simp only [hφ, Real.exp_zero, one_mul] at h
  have he := Real.exp_pos (-t)
  have hm : Real.exp (-t) * Real.exp t = 1 := by rw [← Real.exp_add]; simp
  have := mul_le_mul_of_nonneg_left h he.le
  rw [← mul_assoc, hm, one_mul] at this
  linarith

private theorem bounded (R : ℝ) (hx : LorenzSolution F x T) (h0 : ∀ j, |x 0 j| ≤ R) (t : ℝ) (ht : t ∈ Icc 0 T) :
    ‖x t‖ ≤ c * R ^ 2 + c * F ^ 2 + 1 := by
  have hS : 0 ≤ c * R ^ 2 + c * F ^ 2 := by positivity
  refine (pi_norm_le_iff_of_nonneg (by linarith)).2 fun j => ?_
  rw [Real.norm_eq_abs]
  have h1 := C116_energy hx t ht
  have h2 : ∑ j, x 0 j ^ 2 ≤ c * R ^ 2 := by
    calc ∑ j, x 0 j ^ 2 ≤ ∑ _j : Fin c, R ^ 2 := Finset.sum_le_sum fun j _ => by
          rw [← sq_abs]; exact pow_le_pow_left₀ (abs_nonneg _) (h0 j) 2
      _ = c * R ^ 2 := by simp
  have h3 : x t j ^ 2 ≤ ∑ j, x t j ^ 2 := Finset.single_le_sum (f := fun j => x t j ^ 2) (fun j _ => sq_nonneg _) (Finset.mem_univ j)
  have e0 := Real.exp_pos (-t)
  have e1 : Real.exp (-t) ≤ 1 := Real.exp_le_one_iff.2 (by linarith [ht.1])
  have h4 : 0 ≤ c * F ^ 2 := by positivity
  have h5 : 0 ≤ ∑ j, x 0 j ^ 2 := Finset.sum_nonneg fun _ _ => sq_nonneg _
  have h6 : |x t j| ^ 2 ≤ c * R ^ 2 + c * F ^ 2 := by
    rw [sq_abs]; nlinarith
  nlinarith [abs_nonneg (x t j), sq_nonneg (|x t j| - 1)]

/-! ## C116 -/

/-- **C116.** Every initial state has a solution for all times. -/
theorem C116_exists (F : ℝ) (x₀ : Fin c → ℝ) (T : ℝ) : ∃ x, x 0 = x₀ ∧ LorenzSolution F x T := by
  obtain ⟨x, h0, h1⟩ := (field F c).exists_solves (x₀ := x₀) (R := c * ‖x₀‖ ^ 2 + c * F ^ 2 + 1) (fun T x hx h0 =>
    bounded _ (solves_iff.1 hx) fun j => by rw [h0]; exact norm_le_pi_norm x₀ j) T
  exact ⟨x, h0, solves_iff.1 h1⟩

/-- **C116.** One step: the error is at most a constant times the fifth power of the step size; the constant depends on dimension,
forcing and the size of the state only. -/
theorem C116_local (c : ℕ) [NeZero c] (F R : ℝ) : ∃ C, ∀ (x : ℝ → Fin c → ℝ) (dt : ℝ), 0 ≤ dt → dt ≤ 1 → LorenzSolution F x dt →
    (∀ j, |x 0 j| ≤ R) → ∀ t u, ∃ Y : Matrix (Fin 1) (Fin c) ℝ, f dt F (.v (x 0)) t u = .ok (.m Y) ∧
      ∀ j, |Y 0 j - x dt j| ≤ C * dt ^ 5 := by
  obtain ⟨C, -, hC⟩ := (field F c).local_error (c * R ^ 2 + c * F ^ 2 + 1)
  refine ⟨C, fun x dt h0 h1 hx hR t u => ⟨_, f_vec dt F _ t u, fun j => ?_⟩⟩
  exact (norm_le_pi_norm ((field F c).rk4 dt (x 0) - x dt) j).trans (hC x dt h0 h1 (solves_iff.2 hx) (bounded R hx hR))

private theorem iterates {dt : ℝ} {x₀ : Fin c → ℝ} {z : ℕ → Arr} {t u : ℕ → Option ℝ} (hz : z 0 = .v x₀)
    (hs : ∀ k, f dt F (z k) (t k) (u k) = .ok (z (k + 1))) (k : ℕ) :
    z (k + 1) = .m (r := 1) (of fun _ j => ((field F c).rk4 dt)^[k + 1] x₀ j) := by
  induction k with
  | zero =>
    have := hs 0
    rw [hz, f_vec] at this
    exact (Except.ok.inj this).symm
  | succ k ih =>
    have := hs (k + 1)
    rw [ih, f_row] at this
    rw [← Except.ok.inj this, Function.iterate_succ_apply' _ (k + 1)]

/-- **C116.** Repeated steps up to a time `T`: the error is at most a constant times the fourth power of the step size. -/
theorem C116_global (c : ℕ) [NeZero c] (F R T : ℝ) (hT : 0 ≤ T) : ∃ C h₀, 0 < h₀ ∧ ∀ x : ℝ → Fin c → ℝ, LorenzSolution F x T →
    (∀ j, |x 0 j| ≤ R) → ∀ dt, 0 < dt → dt ≤ h₀ → ∀ (z : ℕ → Arr) (t u : ℕ → Option ℝ), z 0 = .v (x 0) →
      (∀ k, f dt F (z k) (t k) (u k) = .ok (z (k + 1))) →
      ∀ n, (n + 1 : ℕ) * dt ≤ T → ∃ Y : Matrix (Fin 1) (Fin c) ℝ, z (n + 1) = .m Y ∧ ∀ j, |Y 0 j - x ((n + 1 : ℕ) * dt) j| ≤ C * dt ^ 4 := by
  obtain ⟨C, h₀, -, h0, hC⟩ := (field F c).global_error (c * R ^ 2 + c * F ^ 2 + 1) T hT
  refine ⟨C, h₀, h0, fun x hx hR dt hd hd' z t u hz hs n hn => ?_⟩
  refine ⟨_, iterates hz hs n, fun j => ?_⟩
  exact (norm_le_pi_norm (((field F c).rk4 dt)^[n + 1] (x 0) - x ((n + 1 : ℕ) * dt)) j).trans
    (hC x (solves_iff.2 hx) (bounded R hx hR) dt hd hd' (n + 1) hn)

/-- **C116.** No blow-up: for step sizes below a bound, however often the step is repeated, the states stay in a bounded set that depends
on dimension, forcing and the size of the first state only. -/
theorem C116_bounded (c : ℕ) [NeZero c] (F R : ℝ) : ∃ B h₀, 0 < h₀ ∧ ∀ x₀ : Fin c → ℝ, (∀ j, |x₀ j| ≤ R) → ∀ dt, 0 < dt → dt ≤ h₀ →
    ∀ (z : ℕ → Arr) (t u : ℕ → Option ℝ), z 0 = .v x₀ → (∀ k, f dt F (z k) (t k) (u k) = .ok (z (k + 1))) →
      ∀ n, ∃ Y : Matrix (Fin 1) (Fin c) ℝ, z (n + 1) = .m Y ∧ ∀ j, |Y 0 j| ≤ B := by
  set S : ℝ := c * R ^ 2 + c * F ^ 2 + 1 with hS
  have hR2 : 0 ≤ c * R ^ 2 := by positivity
  have hF2 : 0 ≤ c * F ^ 2 := by positivity
  have hS1 : 1 ≤ S := by linarith
  have comp : ∀ y : Fin c → ℝ, ∑ j, y j ^ 2 ≤ S → ∀ j, |y j| ≤ S := fun y hy j => by
    have h3 : y j ^ 2 ≤ ∑ j, y j ^ 2 := Finset.single_le_sum (f := fun j => y j ^ 2) (fun j _ => sq_nonneg _) (Finset.mem_univ j)
    refine abs_le_of_sq_le_sq (h3.trans (hy.trans ?_)) (by linarith)
    nlinarith
  obtain ⟨C, hC0, hC⟩ := (field F c).local_error S
  set K : ℝ := c * (2 * S * C + C ^ 2) with hK
  have hK0 : 0 ≤ K := by positivity
  have keep : ∀ dt, 0 < dt → dt ≤ min 1 (1 / (2 * K + 1)) → ∀ y : Fin c → ℝ, ∑ j, y j ^ 2 ≤ S → ∑ j, (field F c).rk4 dt y j ^ 2 ≤ S := by
    intro dt hd hd' y hy
    have d1 : dt ≤ 1 := hd'.trans (min_le_left _ _)
    have dK : dt * (2 * K + 1) ≤ 1 := by
      have := hd'.trans (min_le_right _ _)
      rwa [le_div_iff₀ (by positivity)] at this
    obtain ⟨x, x0, hx⟩ := C116_exists F y dt
    have he : ∀ t ∈ Icc 0 dt, ∑ j, x t j ^ 2 ≤ Real.exp (-t) * S + (1 - Real.exp (-t)) * (S - 1) := fun t ht => by
      have h1 := C116_energy hx t ht
      rw [x0] at h1
      have e0 := Real.exp_pos (-t)
      have e1 : Real.exp (-t) ≤ 1 := Real.exp_le_one_iff.2 (by linarith [ht.1])
      nlinarith [mul_le_mul_of_nonneg_left hy e0.le]
    have hb : ∀ t ∈ Icc 0 dt, ∑ j, x t j ^ 2 ≤ S := fun t ht => (he t ht).trans (by
      have e1 : Real.exp (-t) ≤ 1 := Real.exp_le_one_iff.2 (by linarith [ht.1])
      nlinarith)
    have hl := hC x dt hd.le d1 (solves_iff.2 hx) fun t ht => (pi_norm_le_iff_of_nonneg (by linarith)).2 (comp _ (hb t ht))
    rw [x0] at hl
    have hw := he dt ⟨hd.le, le_rfl⟩
    have hexp : Real.exp (-dt) ≤ 1 - dt / 2 := by
      rw [Real.exp_neg]
      have h2 := Real.add_one_le_exp dt
      rw [inv_le_comm₀ (Real.exp_pos _) (by linarith)]
      refine le_trans ?_ h2
      rw [inv_le_comm₀ (by linarith) (by linarith), inv_eq_one_div, div_le_iff₀ (by linarith)]
      nlinarith
    have d5 : 0 ≤ dt ^ 5 := by positivity
    have one : ∀ j, (field F c).rk4 dt y j ^ 2 ≤ x dt j ^ 2 + (2 * S * C + C ^ 2) * dt ^ 5 := fun j => by
      have e := (norm_le_pi_norm ((field F c).rk4 dt y - x dt) j).trans hl
      rw [Pi.sub_apply, Real.norm_eq_abs] at e
      have w := comp _ (hb dt ⟨hd.le, le_rfl⟩) j
      set d := (field F c).rk4 dt y j - x dt j with hdd
      have e2 : (field F c).rk4 dt y j = x dt j + d := by rw [hdd]; ring
      have p1 : x dt j * d ≤ S * (C * dt ^ 5) := by
        calc x dt j * d ≤ |x dt j| * |d| := by rw [← abs_mul]; exact le_abs_self _
          _ ≤ S * (C * dt ^ 5) := mul_le_mul w e (abs_nonneg _) (by linarith)
      have p2 : d ^ 2 ≤ C ^ 2 * dt ^ 5 := by
        calc d ^ 2 = |d| ^ 2 := (sq_abs d).symm
          _ ≤ (C * dt ^ 5) ^ 2 := pow_le_pow_left₀ (abs_nonneg _) e 2
          _ = C ^ 2 * dt ^ 5 * dt ^ 5 := by ring
          _ ≤ C ^ 2 * dt ^ 5 * 1 := mul_le_mul_of_nonneg_left (pow_le_one₀ hd.le d1) (by positivity)
          _ = _ := mul_one _
      rw [e2]
      nlinarith
    have sum : ∑ j, (field F c).rk4 dt y j ^ 2 ≤ ∑ j, x dt j ^ 2 + K * dt ^ 5 := by
      refine (Finset.sum_le_sum fun j _ => one j).trans (le_of_eq ?_)
      rw [Finset.sum_add_distrib, Finset.sum_const, Finset.card_univ, Fintype.card_fin, nsmul_eq_mul, hK]
      ring
    have small : K * dt ^ 5 ≤ dt / 2 := by
      have q1 : K * dt ≤ 1 / 2 := by nlinarith
      have q2 : dt ^ 4 ≤ dt := by
        have : dt ^ 3 ≤ 1 := pow_le_one₀ hd.le d1
        nlinarith
      calc K * dt ^ 5 = K * dt ^ 4 * dt := by ring
        _ ≤ K * dt * dt := by gcongr
        _ ≤ 1 / 2 * dt := by gcongr
        _ = dt / 2 := by ring
    nlinarith
  refine ⟨S, min 1 (1 / (2 * K + 1)), by positivity, fun x₀ h0 dt hd hd' z t u hz hs n => ⟨_, iterates hz hs n, comp _ ?_⟩⟩
  have start : ∑ j, x₀ j ^ 2 ≤ S := by
    calc ∑ j, x₀ j ^ 2 ≤ ∑ _j : Fin c, R ^ 2 := Finset.sum_le_sum fun j _ => by
          rw [← sq_abs]; exact pow_le_pow_left₀ (abs_nonneg _) (h0 j) 2
      _ = c * R ^ 2 := by simp
      _ ≤ S := by linarith
  have all : ∀ k, ∑ j, ((field F c).rk4 dt)^[k] x₀ j ^ 2 ≤ S := by
    intro k
    induction k with
    | zero => exact start
    | succ k ih =>
      rw [Function.iterate_succ_apply']
      exact keep dt hd hd' _ ih
  exact all (n + 1)

/-- **C116.** The order is no better than that: on states with equal components the equation is `x' = F - x`, and the step returns the
Taylor polynomial of degree four of the solution. -/
theorem C116_uniform (dt F a : ℝ) (t u : Option ℝ) :
    LorenzSolution (c := c) F (fun s _ => F + (a - F) * Real.exp (-s)) T ∧
    f dt F (.v fun _ : Fin c => a) t u =
      .ok (.m (r := 1) (of fun _ (_ : Fin c) => F + (a - F) * (1 - dt + dt ^ 2 / 2 - dt ^ 3 / 6 + dt ^ 4 / 24))) := by
  constructor
  · intro s _
    refine hasDerivWithinAt_pi.2 fun j => ?_
    have h : HasDerivAt (fun s : ℝ => F + (a - F) * Real.exp (-s)) ((a - F) * (Real.exp (-s) * -1)) s :=
      (((hasDerivAt_neg s).exp).const_mul _).const_add F
    refine (h.congr_deriv ?_).hasDerivWithinAt
    simp only [lorenz]; ring
  · rw [f_vec]
    congr 3
    ext i j
    have hl : ∀ b : ℝ, lorenz F (fun _ : Fin c => b) = fun _ => F - b := fun b => by
      funext k; simp only [lorenz]; ring
    have ha : ∀ s b b' : ℝ, ((fun _ : Fin c => b) + s • (fun _ : Fin c => b')) = fun _ => b + s * b' := fun _ _ _ => rfl
    simp only [QuadField.rk4, QuadField.incr, field_d1, hl, ha, Pi.add_apply, Pi.smul_apply, smul_eq_mul]
    ring

/-- Forty components, the system of the sweeps, from the state at which the spin-up starts: there is a solution, and the code follows
it for ten time units with an error of fourth order. -/
example : ∃ (x : ℝ → Fin 40 → ℝ) (C h₀ : ℝ), x 0 = (fun i => if i.val = 0 then 8.01 else 8) ∧ LorenzSolution 8 x 10 ∧ 0 < h₀ ∧
    ∀ dt, 0 < dt → dt ≤ h₀ → ∀ (z : ℕ → Arr), z 0 = .v (x 0) → (∀ k, f dt 8 (z k) none none = .ok (z (k + 1))) →
      ∀ n : ℕ, (n + 1 : ℕ) * dt ≤ 10 → ∃ Y : Matrix (Fin 1) (Fin 40) ℝ, z (n + 1) = .m Y ∧ ∀ j, |Y 0 j - x ((n + 1 : ℕ) * dt) j| ≤ C * dt ^ 4 := by
  obtain ⟨x, h0, hx⟩ := C116_exists (c := 40) 8 (fun i => if i.val = 0 then 8.01 else 8) 10
  obtain ⟨C, h₀, hp, hC⟩ := C116_global 40 8 9 10 (by norm_num)
  refine ⟨x, C, h₀, h0, hx, hp, fun dt hd hd' z hz hs => hC x hx (fun j => ?_) dt hd hd' z (fun _ => none) (fun _ => none) hz hs⟩
  rw [h0]
  show |if j.val = 0 then (8.01 : ℝ) else 8| ≤ 9
  split_ifs <;> norm_num

private theorem f_const (dt F b : ℝ) (t u : Option ℝ) : f dt F (.m (r := 1) (of fun _ (_ : Fin c) => b)) t u =
    .ok (.m (r := 1) (of fun _ (_ : Fin c) => F + (b - F) * (1 - dt + dt ^ 2 / 2 - dt ^ 3 / 6 + dt ^ 4 / 24))) := by
  have h1 := f_row (c := c) dt F (fun _ => b) t u
  have h2 := (C116_uniform (c := c) (T := 0) dt F b t u).2
  rw [f_vec] at h2
  rw [h1, h2]

/-- **C116** (step sizes). From a state with equal components `a ≠ F` repeated steps converge to the equilibrium `F`, as the solution
does, when `dt³ - 4 dt² + 12 dt - 24 < 0` (`dt` up to about 2.785), and leave every bounded set when it is positive. -/
theorem C116_step_limit {dt a : ℝ} (hd : 0 < dt) (ha : a ≠ F) {z : ℕ → Arr} {t u : ℕ → Option ℝ} (hz : z 0 = .v fun _ : Fin c => a)
    (hs : ∀ k, f dt F (z k) (t k) (u k) = .ok (z (k + 1))) :
    ∃ w : ℕ → ℝ, (∀ k, z (k + 1) = .m (r := 1) (of fun _ (_ : Fin c) => w k)) ∧
      (dt ^ 3 - 4 * dt ^ 2 + 12 * dt - 24 < 0 → Filter.Tendsto w Filter.atTop (nhds F)) ∧
      (0 < dt ^ 3 - 4 * dt ^ 2 + 12 * dt - 24 → Filter.Tendsto (fun k => |w k|) Filter.atTop Filter.atTop) := by
  set ρ : ℝ := 1 - dt + dt ^ 2 / 2 - dt ^ 3 / 6 + dt ^ 4 / 24 with hρ
  have h0 : 0 < ρ := by
    nlinarith [sq_nonneg (dt ^ 2 / 5 - dt / 2 + 1 / 2), sq_nonneg (dt ^ 2 - 2 * dt), sq_nonneg (dt - 1), sq_nonneg (dt - 2), sq_nonneg dt,
      sq_nonneg (dt ^ 2 - 4 * dt + 4)]
  refine ⟨fun k => F + (a - F) * ρ ^ (k + 1), fun k => ?_, fun h => ?_, fun h => ?_⟩
  · induction k with
    | zero =>
      have := hs 0
      rw [hz, (C116_uniform (c := c) (T := 0) dt F a _ _).2] at this
      rw [← Except.ok.inj this]
      simp only [zero_add, pow_one, hρ]
    | succ k ih =>
      have := hs (k + 1)
      rw [ih, f_const] at this
      rw [← Except.ok.inj this]
      congr 2
      funext _ _
      ring
  · have h1 : ρ < 1 := by
      have : ρ = 1 + dt * (dt ^ 3 - 4 * dt ^ 2 + 12 * dt - 24) / 24 := by rw [hρ]; ring
      nlinarith [mul_neg_of_pos_of_neg hd h]
    have := (((tendsto_pow_atTop_nhds_zero_of_lt_one h0.le h1).comp (Filter.tendsto_add_atTop_nat 1)).const_mul (a - F)).const_add F
    simpa using this
  · have h1 : 1 < ρ := by
      have : ρ = 1 + dt * (dt ^ 3 - 4 * dt ^ 2 + 12 * dt - 24) / 24 := by rw [hρ]; ring
      nlinarith [mul_pos hd h]
    have h2 : Filter.Tendsto (fun k : ℕ => |a - F| * ρ ^ (k + 1) - |F|) Filter.atTop Filter.atTop := by
      refine Filter.tendsto_atTop_add_const_right _ (-|F|) (Filter.Tendsto.const_mul_atTop (abs_pos.2 (sub_ne_zero.2 ha)) ?_)
      exact (tendsto_pow_atTop_atTop_of_one_lt h1).comp (Filter.tendsto_add_atTop_nat 1)
    refine Filter.tendsto_atTop_mono (fun k => ?_) h2
    have h3 : |(a - F) * ρ ^ (k + 1)| = |a - F| * ρ ^ (k + 1) := by rw [abs_mul, abs_of_pos (pow_pos h0 _)]
    have h4 := abs_sub_abs_le_abs_sub ((a - F) * ρ ^ (k + 1)) (-F)
    rw [abs_neg, sub_neg_eq_add, add_comm ((a - F) * ρ ^ (k + 1)) F, h3] at h4
    exact h4

/-- Forty components, forcing 8, a state of rest: with steps of length three the code runs away from the equilibrium. -/
example : ∃ (z : ℕ → Arr) (w : ℕ → ℝ), z 0 = (.v fun _ : Fin 40 => 0) ∧ (∀ k, f 3 8 (z k) none none = .ok (z (k + 1))) ∧
    (∀ k, z (k + 1) = .m (r := 1) (of fun _ (_ : Fin 40) => w k)) ∧ Filter.Tendsto (fun k => |w k|) Filter.atTop Filter.atTop := by
  let z : ℕ → Arr := fun k => k.casesOn (.v fun _ : Fin 40 => 0) fun k => .m (r := 1) (of fun _ (_ : Fin 40) => 8 - 8 * (11 / 8) ^ (k + 1))
  have hs : ∀ k, f 3 8 (z k) none none = .ok (z (k + 1)) := fun k => by
    cases k with
    | zero =>
      rw [show z 0 = .v fun _ : Fin 40 => 0 from rfl, (C116_uniform (T := 0) 3 8 0 none none).2]
      show _ = Except.ok (Arr.m (r := 1) (of fun _ (_ : Fin 40) => 8 - 8 * (11 / 8 : ℝ) ^ (0 + 1)))
      norm_num
    | succ k =>
      show f 3 8 (.m (r := 1) (of fun _ (_ : Fin 40) => 8 - 8 * (11 / 8 : ℝ) ^ (k + 1))) none none = _
      rw [f_const]
      show _ = Except.ok (Arr.m (r := 1) (of fun _ (_ : Fin 40) => 8 - 8 * (11 / 8 : ℝ) ^ (k + 1 + 1)))
      congr 3
      funext _ _
      ring
  obtain ⟨w, h1, -, h2⟩ := C116_step_limit (c := 40) (F := 8) (dt := 3) (a := 0) (t := fun _ => none) (u := fun _ => none)
    (by norm_num) (by norm_num) rfl hs
  exact ⟨z, w, rfl, hs, h1, h2 (by norm_num)⟩

end Verif
