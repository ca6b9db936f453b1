import Verif.Model.Systems
import Verif.Lemmas.Arr
import Mathlib.Analysis.SpecialFunctions.Trigonometric.Deriv
import Mathlib.Analysis.Calculus.Deriv.Mul
import Mathlib.Analysis.Calculus.Deriv.Add

/-!
# Properties of the state-space models (C55–C57)
-/

namespace Verif

open Matrix

/-! ## C57: growth model -/

/-- C57: the transition is the function of the README, entry by entry, and returns an array of the same shape. -/
theorem C57_formula (x : Arr) (t : ℝ) (u : Option ℝ) :
    ∃ y, UNGM.f x (some t) u = .ok y ∧ y.shape = x.shape ∧
      ∀ i j, (0 < x.rows ∧ 0 < x.cols) →
        y.bget i j = x.bget i j / 2 + 25 * x.bget i j / (1 + x.bget i j ^ 2) + 8 * Real.cos (6 / 5 * t) := by
  refine ⟨_, rfl, ?_, ?_⟩
  · cases x <;> rfl
  · intro i j hx
    cases x with
    | s a => simp only [Arr.map, Arr.bget_s]; norm_num; ring
    | @v n g =>
      have : j % n < n := Nat.mod_lt _ hx.2
      simp only [Arr.map, Arr.bget, this, dite_true]; norm_num; ring
    | @m r c M =>
      have h1 : i % r < r := Nat.mod_lt _ hx.1
      have h2 : j % c < c := Nat.mod_lt _ hx.2
      simp only [Arr.map, Arr.bget, h1, h2, and_self, dite_true]; norm_num; ring

/-- `|25 x / (1 + x²)| ≤ 25/2`. -/
private theorem growth_le (x : ℝ) : |25 * x / (1 + x ^ 2)| ≤ 25 / 2 := by
  have h : (0 : ℝ) < 1 + x ^ 2 := by positivity
  rw [abs_div, abs_of_pos h, div_le_iff₀ h, abs_mul]
  have : |x| ^ 2 = x ^ 2 := sq_abs x
  rw [abs_of_pos (by norm_num : (0 : ℝ) < 25)]
  nlinarith [sq_nonneg (|x| - 1)]

/-- C57: one step at most halves the distance to zero, plus 20.5. -/
theorem C57_step_bound (x t : ℝ) (u : Option ℝ) :
    ∃ y, UNGM.f (.v (n := 1) fun _ => x) (some t) u = .ok (.v (n := 1) fun _ => y) ∧ |y| ≤ |x| / 2 + 20.5 := by
  refine ⟨_, rfl, ?_⟩
  have h1 := growth_le x
  have h2 : |8 * Real.cos (1.2 * t)| ≤ 8 := by
    rw [abs_mul, abs_of_pos (by norm_num : (0 : ℝ) < 8)]
    nlinarith [Real.abs_cos_le_one (1.2 * t)]
  have h3 : |0.5 * x| = |x| / 2 := by rw [abs_mul, abs_of_pos (by norm_num : (0 : ℝ) < 0.5)]; ring
  calc _ ≤ |0.5 * x| + |25 * x / (1 + x ^ 2)| + |8 * Real.cos (1.2 * t)| :=
        (abs_add_le _ _).trans (add_le_add_left (abs_add_le _ _) _)
    _ ≤ _ := by rw [h3]; norm_num at h1 h2 ⊢; linarith

/-- C57: along every noise-free trajectory, at whatever times, `|x_k| ≤ |x_0| / 2^k + 41`. -/
theorem C57_trajectory_bound (X : ℕ → ℝ) (times : ℕ → ℝ) (u : ℕ → Option ℝ)
    (hX : ∀ k, UNGM.f (.v (n := 1) fun _ => X k) (some (times k)) (u k) = .ok (.v (n := 1) fun _ => X (k + 1))) (k : ℕ) :
    |X k| ≤ |X 0| / 2 ^ k + 41 * (1 - 1 / 2 ^ k) := by
  induction k with
  | zero => simp
  | succ k ih =>
    obtain ⟨y, hy, hb⟩ := C57_step_bound (X k) (times k) (u k)
    rw [hX k] at hy
    have e : X (k + 1) = y := congrFun (Arr.v_inj.1 (Except.ok.inj hy)) 0
    have p : (0 : ℝ) < 2 ^ k := by positivity
    have e2 : |X 0| / 2 ^ (k + 1) + 41 * (1 - 1 / 2 ^ (k + 1)) = (|X 0| / 2 ^ k + 41 * (1 - 1 / 2 ^ k)) / 2 + 20.5 := by
      rw [pow_succ]; field_simp; ring
    rw [e, e2]; linarith

/-- C57: `x` and `-x` give the same measurement. -/
theorem C57_sign_ambiguity (x : Arr) (t u : Option ℝ) : UNGM.h (x.smul (-1)) t u = UNGM.h x t u := by
  cases x <;> simp [UNGM.h, Arr.smul, Arr.map]

/-- C57: without a time the transition raises `TypeError`, so `t` must be passed. -/
theorem C57_needs_time (x : Arr) (u : Option ℝ) : UNGM.f x none u = .error .type := rfl

example : UNGM.f (.v (n := 1) fun _ => 1) (some 0) none = .ok (.v (n := 1) fun _ => 21) := by
  simp only [UNGM.f, Arr.map, mul_zero, Real.cos_zero]; norm_num

/-! ## C55: turning target -/

private theorem bott_rows {N : ℕ} (dt : ℝ) (X : Matrix (Fin N) (Fin 5) ℝ) (h : ∀ k, X k 4 ≠ 0) (t u : Option ℝ) :
    BOTT.f dt (.m X) t u = .ok (.m (of fun k => BOTT.F dt (X k 4) *ᵥ X k)) := by
  simp only [BOTT.f, Arr.atleast2d_m, dite_true]
  have e : X.submatrix id (Fin.cast (rfl : 5 = 5)) = X := rfl
  rw [e, if_pos h]

private theorem bott_mulVec (dt w : ℝ) (x : Fin 5 → ℝ) :
    BOTT.F dt w *ᵥ x =
      ![x 0 + Real.sin (w * dt) / w * x 1 - (1 - Real.cos (w * dt)) / w * x 3,
        Real.cos (w * dt) * x 1 - Real.sin (w * dt) * x 3,
        x 2 + (1 - Real.cos (w * dt)) / w * x 1 + Real.sin (w * dt) / w * x 3,
        Real.sin (w * dt) * x 1 + Real.cos (w * dt) * x 3,
        x 4] := by
  funext i
  fin_cases i <;> simp [BOTT.F, Matrix.mulVec, dotProduct, Fin.sum_univ_five] <;> ring

/-- C55: rows are treated independently of each other: the result for a batch consists of the results for its rows. -/
theorem C55_rows_independent {N : ℕ} (dt : ℝ) (X : Matrix (Fin N) (Fin 5) ℝ) (h : ∀ k, X k 4 ≠ 0) (t u : Option ℝ) :
    ∃ Y : Matrix (Fin N) (Fin 5) ℝ, BOTT.f dt (.m X) t u = .ok (.m Y) ∧
      ∀ k, BOTT.f dt (.v (X k)) t u = .ok (.m (r := 1) (of fun _ j => Y k j)) := by
  refine ⟨_, bott_rows dt X h t u, fun k => ?_⟩
  have := bott_rows dt (N := 1) (of fun _ j => X k j) (fun _ => h k) t u
  exact this

/-- C55: for a nonzero turn rate the result is a row in which turn rate, speed and the centre of the circle are unchanged. -/
theorem C55_invariants (dt : ℝ) (x : Fin 5 → ℝ) (h : x 4 ≠ 0) (t u : Option ℝ) :
    ∃ y : Fin 5 → ℝ, BOTT.f dt (.v x) t u = .ok (.m (r := 1) (of fun _ j => y j)) ∧ y 4 = x 4 ∧
      y 1 ^ 2 + y 3 ^ 2 = x 1 ^ 2 + x 3 ^ 2 ∧
      y 0 - y 3 / y 4 = x 0 - x 3 / x 4 ∧ y 2 + y 1 / y 4 = x 2 + x 1 / x 4 := by
  have e := bott_rows dt (N := 1) (of fun _ j => x j) (fun _ => h) t u
  refine ⟨BOTT.F dt (x 4) *ᵥ x, e, ?_⟩
  rw [bott_mulVec]
  have sc := Real.sin_sq_add_cos_sq (x 4 * dt)
  refine ⟨by simp, ?_, ?_, ?_⟩
  · simp only [cons_val_one, cons_val_zero, cons_val]
    linear_combination (x 1 ^ 2 + x 3 ^ 2) * sc
  · simp only [cons_val_zero, cons_val]
    field_simp; ring
  · simp only [cons_val_one, cons_val_zero, cons_val]
    field_simp; ring

private theorem bott_flow (a b w : ℝ) (hw : w ≠ 0) (x : Fin 5 → ℝ) :
    BOTT.F b w *ᵥ (BOTT.F a w *ᵥ x) = BOTT.F (a + b) w *ᵥ x := by
  rw [bott_mulVec a, bott_mulVec b, bott_mulVec (a + b)]
  have hs : Real.sin (w * (a + b)) = Real.sin (w * a) * Real.cos (w * b) + Real.cos (w * a) * Real.sin (w * b) := by
    rw [mul_add, Real.sin_add]
  have hc : Real.cos (w * (a + b)) = Real.cos (w * a) * Real.cos (w * b) - Real.sin (w * a) * Real.sin (w * b) := by
    rw [mul_add, Real.cos_add]
  rw [hs, hc]
  funext i
  fin_cases i <;> simp <;> field_simp <;> ring

/-- C55: a step of `a` followed by a step of `b` is a step of `a + b`, for any batch of states with nonzero turn rates. -/
theorem C55_flow {N : ℕ} (a b : ℝ) (X : Matrix (Fin N) (Fin 5) ℝ) (h : ∀ k, X k 4 ≠ 0) (t u t' u' t'' u'' : Option ℝ) :
    (BOTT.f a (.m X) t u >>= fun y => BOTT.f b y t' u') = BOTT.f (a + b) (.m X) t'' u'' ∧
      ∃ Y, BOTT.f (a + b) (.m X) t'' u'' = .ok Y := by
  have h4 : ∀ (dt w : ℝ) (x : Fin 5 → ℝ), (BOTT.F dt w *ᵥ x) 4 = x 4 := fun dt w x => by rw [bott_mulVec]; simp
  rw [bott_rows a X h, bott_rows (a + b) X h]
  refine ⟨?_, _, rfl⟩
  refine (bott_rows b _ (fun k => ?_) t' u').trans ?_
  · simp only [of_apply]; rw [h4]; exact h k
  · congr 2
    ext k i
    simp only [of_apply]
    rw [show BOTT.F a (X k 4) *ᵥ X k = (fun j => (BOTT.F a (X k 4) *ᵥ X k) j) from rfl]
    simp only [h4]
    exact congrFun (bott_flow a b (X k 4) (h k) (X k)) i

/-- C55: the step is the exact solution of the coordinated turn equations
`ẋ = vₓ, v̇ₓ = -ω v_y, ẏ = v_y, v̇_y = ω vₓ, ω̇ = 0` started at `x`. -/
theorem C55_solves_turn_equations (x : Fin 5 → ℝ) (h : x 4 ≠ 0) (t u : Option ℝ) :
    ∃ y : ℝ → Fin 5 → ℝ, (∀ s, BOTT.f s (.v x) t u = .ok (.m (r := 1) (of fun _ j => y s j))) ∧ y 0 = x ∧
      ∀ s, HasDerivAt (fun s => y s 0) (y s 1) s ∧ HasDerivAt (fun s => y s 1) (-(y s 4) * y s 3) s ∧
        HasDerivAt (fun s => y s 2) (y s 3) s ∧ HasDerivAt (fun s => y s 3) (y s 4 * y s 1) s ∧ y s 4 = x 4 := by
  refine ⟨fun s => BOTT.F s (x 4) *ᵥ x, fun s => bott_rows s (N := 1) (of fun _ j => x j) (fun _ => h) t u, ?_, fun s => ?_⟩
  · show BOTT.F 0 (x 4) *ᵥ x = x
    rw [bott_mulVec]; funext i; fin_cases i <;> simp
  · simp only [bott_mulVec]
    have hl : HasDerivAt (fun s : ℝ => x 4 * s) (x 4) s := by simpa using (hasDerivAt_id s).const_mul (x 4)
    have hsin : HasDerivAt (fun s : ℝ => Real.sin (x 4 * s)) (Real.cos (x 4 * s) * x 4) s := hl.sin
    have hcos : HasDerivAt (fun s : ℝ => Real.cos (x 4 * s)) (-Real.sin (x 4 * s) * x 4) s := hl.cos
    simp only [cons_val_zero, cons_val_one, cons_val]
    refine ⟨?_, ?_, ?_, ?_, trivial⟩
    · have := ((hsin.div_const (x 4)).mul_const (x 1) |>.const_add (x 0)).sub
        (((hcos.const_sub 1).div_const (x 4)).mul_const (x 3))
      refine this.congr_deriv ?_
      field_simp
    · have := (hcos.mul_const (x 1)).sub (hsin.mul_const (x 3))
      refine this.congr_deriv ?_
      ring
    · have := ((((hcos.const_sub 1).div_const (x 4)).mul_const (x 1)).const_add (x 2)).add
        ((hsin.div_const (x 4)).mul_const (x 3))
      refine this.congr_deriv ?_
      field_simp
    · have := (hsin.mul_const (x 1)).add (hcos.mul_const (x 3))
      refine this.congr_deriv ?_
      ring

/-- C55: for a fixed turn rate the step is linear in position and velocity. -/
theorem C55_linear (dt c d : ℝ) (x z : Fin 5 → ℝ) (w : ℝ) (hw : w ≠ 0) (hx : x 4 = w) (hz : z 4 = w) (hcd : c + d = 1)
    (t u : Option ℝ) :
    ∃ y y' y'' : Fin 5 → ℝ, BOTT.f dt (.v x) t u = .ok (.m (r := 1) (of fun _ j => y j)) ∧
      BOTT.f dt (.v z) t u = .ok (.m (r := 1) (of fun _ j => y' j)) ∧
      BOTT.f dt (.v (c • x + d • z)) t u = .ok (.m (r := 1) (of fun _ j => y'' j)) ∧ y'' = c • y + d • y' := by
  have hz' : (c • x + d • z) 4 = w := by simp [hx, hz, ← add_mul, hcd]
  refine ⟨BOTT.F dt w *ᵥ x, BOTT.F dt w *ᵥ z, BOTT.F dt w *ᵥ (c • x + d • z), ?_, ?_, ?_, ?_⟩
  · have := bott_rows dt (N := 1) (of fun _ j => x j) (fun _ => by rw [of_apply, hx]; exact hw) t u
    rw [← hx]; exact this
  · have := bott_rows dt (N := 1) (of fun _ j => z j) (fun _ => by rw [of_apply, hz]; exact hw) t u
    rw [← hz]; exact this
  · have := bott_rows dt (N := 1) (of fun _ j => (c • x + d • z) j) (fun _ => by rw [of_apply, hz']; exact hw) t u
    rw [← hz']; exact this
  · rw [mulVec_add, mulVec_smul, mulVec_smul]

example : ∃ x : Fin 5 → ℝ, x 4 ≠ 0 ∧ x 1 ≠ 0 := ⟨![1000, 300, 1000, 0, -1], by simp, by simp⟩

/-! ## C56: constant velocity model and the process noises -/

private theorem bot_rows {N : ℕ} (dt : ℝ) (X : Matrix (Fin N) (Fin 4) ℝ) (t u : Option ℝ) :
    BOT.f dt (.m X) t u = .ok (.m (X * (BOT.F dt)ᵀ)) := by
  simp only [BOT.f, Arr.atleast2d_m, dite_true]
  rfl

private theorem botF_mulVec (dt : ℝ) (x : Fin 4 → ℝ) :
    BOT.F dt *ᵥ x = ![x 0 + dt * x 2, x 1 + dt * x 3, x 2, x 3] := by
  funext i
  fin_cases i <;> simp [BOT.F, Matrix.mulVec, dotProduct, Fin.sum_univ_four]

/-- C56: the constant velocity model moves the position (components 0, 1) by `dt` times the velocity (components 2, 3), row by
row; every input of shape `(N, 4)` or `(4,)` gives an output of shape `(N, 4)` or `(1, 4)`. -/
theorem C56_constant_velocity {N : ℕ} (dt : ℝ) (X : Matrix (Fin N) (Fin 4) ℝ) (t u : Option ℝ) :
    ∃ Y : Matrix (Fin N) (Fin 4) ℝ, BOT.f dt (.m X) t u = .ok (.m Y) ∧
      (∀ k, BOT.f dt (.v (X k)) t u = .ok (.m (r := 1) (of fun _ j => Y k j))) ∧
      ∀ k, Y k 0 = X k 0 + dt * X k 2 ∧ Y k 1 = X k 1 + dt * X k 3 ∧ Y k 2 = X k 2 ∧ Y k 3 = X k 3 := by
  refine ⟨_, bot_rows dt X t u, fun k => ?_, fun k => ?_⟩
  · refine (bot_rows dt (N := 1) (of fun _ j => X k j) t u).trans ?_
    congr 2
  · have e : ∀ j, (X * (BOT.F dt)ᵀ) k j = (BOT.F dt *ᵥ X k) j := fun j => by
      simp [Matrix.mul_apply, Matrix.mulVec, dotProduct, mul_comm]
    simp only [e, botF_mulVec]
    simp

private theorem botF_add (a b : ℝ) : BOT.F b * BOT.F a = BOT.F (a + b) := by
  ext i j
  fin_cases i <;> fin_cases j <;> simp [BOT.F, Matrix.mul_apply, Fin.sum_univ_four]

/-- C56: a step of `a` followed by a step of `b` is a step of `a + b`. -/
theorem C56_flow {N : ℕ} (a b : ℝ) (X : Matrix (Fin N) (Fin 4) ℝ) (t u t' u' t'' u'' : Option ℝ) :
    (BOT.f a (.m X) t u >>= fun y => BOT.f b y t' u') = BOT.f (a + b) (.m X) t'' u'' := by
  rw [bot_rows a X, bot_rows (a + b) X]
  refine (bot_rows b _ t' u').trans ?_
  rw [Matrix.mul_assoc, ← Matrix.transpose_mul, botF_add]

/-- C56: the process noise of a step of `a + b` is the noise of the first step carried through the second plus the noise of the
second: the noise model does not depend on how time is cut into steps. -/
theorem C56_noise_consistent (a b q : ℝ) : BOT.Q (a + b) q = BOT.F b * BOT.Q a q * (BOT.F b)ᵀ + BOT.Q b q := by
  ext i j
  fin_cases i <;> fin_cases j <;>
    simp [BOT.F, BOT.Q, Fin.sum_univ_four, Matrix.transpose_apply, Matrix.vecMul, dotProduct] <;> ring

private theorem quad2 (dt a b : ℝ) :
    dt ^ 3 / 3 * a ^ 2 + dt ^ 2 * a * b + dt * b ^ 2 = dt * ((b + dt * a / 2) ^ 2 + dt ^ 2 * a ^ 2 / 12) := by ring

private theorem quad2_pos {dt a b : ℝ} (hd : 0 < dt) (h : a ≠ 0 ∨ b ≠ 0) :
    0 < dt ^ 3 / 3 * a ^ 2 + dt ^ 2 * a * b + dt * b ^ 2 := by
  rw [quad2]
  by_cases ha : a = 0
  · have hb : b ≠ 0 := by tauto
    subst ha; simp only [mul_zero, zero_div, add_zero]; positivity
  · have : 0 < dt ^ 2 * a ^ 2 / 12 := by positivity
    nlinarith [sq_nonneg (b + dt * a / 2)]

private theorem quad2_nonneg {dt : ℝ} (a b : ℝ) (hd : 0 < dt) : 0 ≤ dt ^ 3 / 3 * a ^ 2 + dt ^ 2 * a * b + dt * b ^ 2 := by
  rw [quad2]; positivity

private theorem make_ok (n k : ℕ) (f h : SysFunc) (Q R : Arr) (g : Gaussian) (dt : ℝ) :
    Sys.make n k f h (.init n (some Q) none) (.init k (some R) none) g dt =
      .ok { transition := f, measurement := h, Q := Q, R := R, initState := g, dt := dt } := by
  simp [Sys.make, GaussianNoise.init]

/-- C56: the process noise covariance that `BearingsOnlyTracking` hands to the filters is positive definite for every positive time
step and intensity. -/
theorem C56_noise_posDef (dt q r : ℝ) (sensors : Option (List Sensor)) (hd : 0 < dt) (hq : 0 < q) :
    ∃ (sys : Sys) (Q : Matrix (Fin 4) (Fin 4) ℝ), BOT.init q r sensors dt = .ok sys ∧ sys.Q = .m Q ∧ Q.PosDef := by
  refine ⟨_, BOT.Q dt q, make_ok .., rfl, ?_⟩
  · refine Matrix.PosDef.of_dotProduct_mulVec_pos ?_ ?_
    · ext i j; fin_cases i <;> fin_cases j <;> simp [BOT.Q]
    · intro x hx
      have e : star x ⬝ᵥ BOT.Q dt q *ᵥ x =
          q * ((dt ^ 3 / 3 * x 0 ^ 2 + dt ^ 2 * x 0 * x 2 + dt * x 2 ^ 2) +
            (dt ^ 3 / 3 * x 1 ^ 2 + dt ^ 2 * x 1 * x 3 + dt * x 3 ^ 2)) := by
        simp [BOT.Q, dotProduct, Matrix.mulVec, Fin.sum_univ_four]; ring
      rw [e]
      refine mul_pos hq ?_
      by_cases h1 : x 0 ≠ 0 ∨ x 2 ≠ 0
      · have := quad2_pos hd h1; have := quad2_nonneg (x 1) (x 3) hd; linarith
      · push Not at h1
        have h2 : x 1 ≠ 0 ∨ x 3 ≠ 0 := by
          by_contra hc; push Not at hc
          exact hx (by funext i; fin_cases i <;> simp [h1.1, h1.2, hc.1, hc.2])
        have := quad2_pos hd h2; have := quad2_nonneg (x 0) (x 2) hd; linarith

/-- C56: the parameter `R_sigma` is the variance of a bearing in the constant velocity model, but its standard deviation in the turning
model. -/
theorem C56_measurement_noise (dt q q0 q1 r : ℝ) (l : List Sensor) : ∃ sys sys', BOT.init q r (some l) dt = .ok sys ∧
    BOTT.init q0 q1 r (some l) dt = .ok sys' ∧ sys.R = .m (diagonal fun _ : Fin l.length => r) ∧
    sys'.R = .m (diagonal fun _ : Fin l.length => r ^ 2) := by
  refine ⟨_, _, make_ok .., make_ok .., ?_, ?_⟩
  · show Arr.m (r • (1 : Matrix (Fin l.length) (Fin l.length) ℝ)) = _
    rw [smul_one_eq_diagonal]
  · show Arr.m (r ^ 2 • (1 : Matrix (Fin l.length) (Fin l.length) ℝ)) = _
    rw [smul_one_eq_diagonal]

private theorem bottQ_explicit (dt q0 q1 : ℝ) : BOTT.Q dt q0 q1 =
    !![q0 * (dt ^ 3 / 3), q0 * (dt ^ 2 / 2), 0, 0, 0;
       q0 * (dt ^ 2 / 2), q0 * dt, 0, 0, 0;
       0, 0, q0 * (dt ^ 3 / 3), q0 * (dt ^ 2 / 2), 0;
       0, 0, q0 * (dt ^ 2 / 2), q0 * dt, 0;
       0, 0, 0, 0, dt * q1] := by
  ext i j
  fin_cases i <;> fin_cases j <;>
    simp [BOTT.Q, BOTT.kronM, BOTT.M, finProdFinEquiv, Fin.divNat, Fin.modNat, Matrix.one_apply]

/-- C56: likewise the turning model; the noise of the turn rate is not coupled to position and velocity. -/
theorem C56_turning_noise_posDef (dt q0 q1 r : ℝ) (sensors : Option (List Sensor)) (hd : 0 < dt) (h0 : 0 < q0) (h1 : 0 < q1) :
    ∃ (sys : Sys) (Q : Matrix (Fin 5) (Fin 5) ℝ), BOTT.init q0 q1 r sensors dt = .ok sys ∧ sys.Q = .m Q ∧ Q.PosDef ∧
      ∀ i : Fin 5, i ≠ 4 → Q i 4 = 0 ∧ Q 4 i = 0 := by
  refine ⟨_, BOTT.Q dt q0 q1, make_ok .., rfl, ?_, ?_⟩
  · rw [bottQ_explicit]
    refine Matrix.PosDef.of_dotProduct_mulVec_pos ?_ ?_
    · ext i j; fin_cases i <;> fin_cases j <;> simp
    · intro x hx
      have e : star x ⬝ᵥ !![q0 * (dt ^ 3 / 3), q0 * (dt ^ 2 / 2), 0, 0, 0;
          q0 * (dt ^ 2 / 2), q0 * dt, 0, 0, 0;
          0, 0, q0 * (dt ^ 3 / 3), q0 * (dt ^ 2 / 2), 0;
          0, 0, q0 * (dt ^ 2 / 2), q0 * dt, 0;
          0, 0, 0, 0, dt * q1] *ᵥ x =
          q0 * ((dt ^ 3 / 3 * x 0 ^ 2 + dt ^ 2 * x 0 * x 1 + dt * x 1 ^ 2) +
            (dt ^ 3 / 3 * x 2 ^ 2 + dt ^ 2 * x 2 * x 3 + dt * x 3 ^ 2)) + dt * q1 * x 4 ^ 2 := by
        simp [dotProduct, Matrix.mulVec, Fin.sum_univ_five]; ring
      rw [e]
      have n1 := quad2_nonneg (x 0) (x 1) hd
      have n2 := quad2_nonneg (x 2) (x 3) hd
      by_cases c1 : x 0 ≠ 0 ∨ x 1 ≠ 0
      · have := quad2_pos hd c1
        have : 0 < q0 * ((dt ^ 3 / 3 * x 0 ^ 2 + dt ^ 2 * x 0 * x 1 + dt * x 1 ^ 2) +
            (dt ^ 3 / 3 * x 2 ^ 2 + dt ^ 2 * x 2 * x 3 + dt * x 3 ^ 2)) := mul_pos h0 (by linarith)
        have : 0 ≤ dt * q1 * x 4 ^ 2 := by positivity
        linarith
      by_cases c2 : x 2 ≠ 0 ∨ x 3 ≠ 0
      · have := quad2_pos hd c2
        have : 0 < q0 * ((dt ^ 3 / 3 * x 0 ^ 2 + dt ^ 2 * x 0 * x 1 + dt * x 1 ^ 2) +
            (dt ^ 3 / 3 * x 2 ^ 2 + dt ^ 2 * x 2 * x 3 + dt * x 3 ^ 2)) := mul_pos h0 (by linarith)
        have : 0 ≤ dt * q1 * x 4 ^ 2 := by positivity
        linarith
      · push Not at c1 c2
        have h4 : x 4 ≠ 0 := by
          intro hc
          exact hx (by funext i; fin_cases i <;> simp [c1.1, c1.2, c2.1, c2.2, hc])
        have : 0 < dt * q1 * x 4 ^ 2 := by positivity
        have : 0 ≤ q0 * ((dt ^ 3 / 3 * x 0 ^ 2 + dt ^ 2 * x 0 * x 1 + dt * x 1 ^ 2) +
            (dt ^ 3 / 3 * x 2 ^ 2 + dt ^ 2 * x 2 * x 3 + dt * x 3 ^ 2)) := mul_nonneg h0.le (by linarith)
        linarith
  · intro i hi
    rw [bottQ_explicit]
    fin_cases i <;> simp at hi ⊢

example : (0 : ℝ) < 0.1 ∧ (0 : ℝ) < 0.01 := by norm_num

end Verif
