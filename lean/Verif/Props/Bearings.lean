import Verif.Model.Systems
import Verif.Spec.Transforms
import Verif.Lemmas.Arr
import Verif.Props.Transforms
import Verif.Model.Kalman
import Mathlib.Analysis.SpecialFunctions.Complex.LogDeriv
import Mathlib.Analysis.Real.Pi.Bounds

/-!
# Properties of the bearing measurements (C61–C63)
-/

namespace Verif

open Matrix

/-- The measurement of a single state with a nonempty sensor list. -/
theorem bearings_vec {n : ℕ} (ix iy : Fin n) (l : List Sensor) (hl : l ≠ []) (x : Fin n → ℝ) :
    bearings ix iy l (.v x) =
      .ok (.m (r := 1) (c := l.length) (of fun _ s => arctan2 (x iy - (l.get s).2) (x ix - (l.get s).1))) := by
  cases l with
  | nil => exact absurd rfl hl
  | cons a l =>
    unfold bearings
    simp only [Arr.atleast2d_v]
    rw [dif_pos ⟨ix.2, iy.2⟩]
    rfl

/-- Two bearings from different places fix the position of a target off the line through them. -/
private theorem two_bearings {z z' a b : ℂ} (ha : Complex.arg (z - a) = Complex.arg (z' - a))
    (hb : Complex.arg (z - b) = Complex.arg (z' - b)) (hab : a ≠ b)
    (hoff : ∀ s : ℝ, z ≠ b + s • (a - b)) : z = z' := by
  have hza : z - a ≠ 0 := fun h => hoff 1 (by rw [sub_eq_zero.1 h]; simp)
  have hzb : z - b ≠ 0 := fun h => hoff 0 (by rw [sub_eq_zero.1 h]; simp)
  have ray : ∀ {p q : ℂ}, p ≠ 0 → Complex.arg p = Complex.arg q → ∃ r : ℝ, q = r • p := by
    intro p q hp h
    by_cases hq : q = 0
    · exact ⟨0, by simp [hq]⟩
    · have := (Complex.arg_eq_arg_iff hp hq).1 h
      refine ⟨‖q‖ / ‖p‖, ?_⟩
      rw [Complex.real_smul]
      push_cast
      exact this.symm
  obtain ⟨r, hr⟩ := ray hza ha
  obtain ⟨t, ht⟩ := ray hzb hb
  -- `z' = a + r (z - a) = b + t (z - b)`
  by_cases h : r = t
  · subst h
    have e : (1 - r) • (a - b) = (0 : ℂ) := by
      simp only [Complex.real_smul] at hr ht ⊢
      push_cast
      linear_combination ht - hr
    rcases smul_eq_zero.1 e with h1 | h1
    · have : r = 1 := by linarith
      subst this
      simp only [one_smul] at hr
      linear_combination -hr
    · exact absurd (sub_eq_zero.1 h1) hab
  · exfalso
    refine hoff ((1 - r) / (t - r)) ?_
    have htr : ((t : ℂ) - r) ≠ 0 := by
      rw [sub_ne_zero]; exact_mod_cast Ne.symm h
    simp only [Complex.real_smul] at hr ht ⊢
    push_cast
    field_simp
    linear_combination hr - ht

/-- The measurement of the state `x` exists and consists of the angles of the vectors from the sensors to the position
`(x ix, x iy)`, seen as complex numbers. -/
private theorem bearings_arg {n : ℕ} (ix iy : Fin n) (l : List Sensor) (hl : l ≠ []) (x : Fin n → ℝ) :
    bearings ix iy l (.v x) =
      .ok (.m (r := 1) (c := l.length) (of fun _ s => Complex.arg (⟨x ix, x iy⟩ - ⟨(l.get s).1, (l.get s).2⟩))) :=
  bearings_vec ix iy l hl x

private theorem same_bearings {n : ℕ} {ix iy : Fin n} {l : List Sensor} {x x' : Fin n → ℝ}
    (h : bearings ix iy l (.v x) = bearings ix iy l (.v x')) {s : Sensor} (hs : s ∈ l) :
    Complex.arg (⟨x ix, x iy⟩ - ⟨s.1, s.2⟩) = Complex.arg (⟨x' ix, x' iy⟩ - ⟨s.1, s.2⟩) := by
  have hl : l ≠ [] := List.ne_nil_of_mem hs
  rw [bearings_arg ix iy l hl, bearings_arg ix iy l hl] at h
  have h := Arr.m_inj.1 (Except.ok.inj h)
  obtain ⟨i, rfl⟩ := List.get_of_mem hs
  exact congrFun (congrFun h 0) i

/-- The position `p` lies on the line through `s` and `s'`. -/
def OnLine (p s s' : ℝ × ℝ) : Prop := ∃ r : ℝ, p = (s'.1 + r * (s.1 - s'.1), s'.2 + r * (s.2 - s'.2))

private theorem two_sensors {n : ℕ} {ix iy : Fin n} {l : List Sensor} {x x' : Fin n → ℝ}
    (h : bearings ix iy l (.v x) = bearings ix iy l (.v x')) {s s' : Sensor} (hs : s ∈ l) (hs' : s' ∈ l) (hne : s ≠ s')
    (hoff : ¬ OnLine (x ix, x iy) s s') : x ix = x' ix ∧ x iy = x' iy := by
  have := two_bearings (same_bearings h hs) (same_bearings h hs') (fun e => hne ?_) (fun r hr => hoff ⟨r, ?_⟩)
  · simpa [Complex.ext_iff] using this
  · obtain ⟨e1, e2⟩ := Complex.ext_iff.1 e
    exact Prod.ext e1 e2
  · obtain ⟨e1, e2⟩ := Complex.ext_iff.1 hr
    simp at e1 e2
    exact Prod.ext e1 e2

/-- C62 (tracking model): if two states have the same noise-free bearings from two different sensors and the first is not on the line
through them, the positions (components 0, 1) agree. -/
theorem C62_two_sensors (l : List Sensor) (s s' : Sensor) (hs : s ∈ l) (hs' : s' ∈ l) (hne : s ≠ s') (x x' : Fin 4 → ℝ)
    (t u : Option ℝ) (hoff : ¬ OnLine (x 0, x 1) s s') (h : BOT.h (some l) (.v x) t u = BOT.h (some l) (.v x') t u) :
    x 0 = x' 0 ∧ x 1 = x' 1 :=
  two_sensors (n := 4) (ix := 0) (iy := 1) h hs hs' hne hoff

/-- C62 (turning model): likewise; the position is in components 0, 2. -/
theorem C62_two_sensors_turn (l : List Sensor) (s s' : Sensor) (hs : s ∈ l) (hs' : s' ∈ l) (hne : s ≠ s') (x x' : Fin 5 → ℝ)
    (t u : Option ℝ) (hoff : ¬ OnLine (x 0, x 2) s s') (h : BOTT.h (some l) (.v x) t u = BOTT.h (some l) (.v x') t u) :
    x 0 = x' 0 ∧ x 2 = x' 2 :=
  two_sensors (n := 5) (ix := 0) (iy := 2) h hs hs' hne hoff

private theorem off_horizontal {p s s' : ℝ × ℝ} (h : s.2 = s'.2) (hp : p.2 ≠ s.2) : ¬ OnLine p s s' := by
  rintro ⟨r, rfl⟩
  simp [h] at hp

/-- C62: with the default sensors the noise-free measurement determines the position, and nothing else: two states have the same
measurement iff they have the same position. -/
theorem C62_default_sensors (x x' : Fin 4 → ℝ) (t u : Option ℝ) :
    BOT.h (some BOT.defaultSensors) (.v x) t u = BOT.h (some BOT.defaultSensors) (.v x') t u ↔ x 0 = x' 0 ∧ x 1 = x' 1 := by
  constructor
  · intro h
    by_cases hy : x 1 = 10
    · exact C62_two_sensors _ (-10, -10) (10, -10) (by simp [BOT.defaultSensors]) (by simp [BOT.defaultSensors])
        (by norm_num) x x' t u (off_horizontal rfl (by show x 1 ≠ -10; rw [hy]; norm_num)) h
    · exact C62_two_sensors _ (-10, 10) (10, 10) (by simp [BOT.defaultSensors]) (by simp [BOT.defaultSensors])
        (by norm_num) x x' t u (off_horizontal rfl hy) h
  · rintro ⟨h0, h1⟩
    have e : ∀ z : Fin 4 → ℝ, BOT.h (some BOT.defaultSensors) (.v z) t u = _ :=
      fun z => bearings_vec (n := 4) 0 1 BOT.defaultSensors (by simp [BOT.defaultSensors]) z
    rw [e, e, h0, h1]

/-- C62: the same for the turning model and its default sensors. -/
theorem C62_default_sensors_turn (x x' : Fin 5 → ℝ) (t u : Option ℝ) :
    BOTT.h (some BOTT.defaultSensors) (.v x) t u = BOTT.h (some BOTT.defaultSensors) (.v x') t u ↔ x 0 = x' 0 ∧ x 2 = x' 2 := by
  constructor
  · intro h
    by_cases hy : x 2 = 20000
    · exact C62_two_sensors_turn _ (-20000, -20000) (20000, -20000) (by simp [BOTT.defaultSensors])
        (by simp [BOTT.defaultSensors]) (by norm_num) x x' t u (off_horizontal rfl (by show x 2 ≠ -20000; rw [hy]; norm_num)) h
    · exact C62_two_sensors_turn _ (-20000, 20000) (20000, 20000) (by simp [BOTT.defaultSensors])
        (by simp [BOTT.defaultSensors]) (by norm_num) x x' t u (off_horizontal rfl hy) h
  · rintro ⟨h0, h1⟩
    have e : ∀ z : Fin 5 → ℝ, BOTT.h (some BOTT.defaultSensors) (.v z) t u = _ :=
      fun z => bearings_vec (n := 5) 0 2 BOTT.defaultSensors (by simp [BOTT.defaultSensors]) z
    rw [e, e, h0, h1]

/-- C62: a single sensor cannot tell the distance: moving the target along the ray from the sensor does not change the
measurement. -/
theorem C62_single_sensor_ambiguous (s : Sensor) (x : Fin 4 → ℝ) (r : ℝ) (hr : 0 < r) (v : Fin 4 → ℝ)
    (h0 : v 0 = s.1 + r * (x 0 - s.1)) (h1 : v 1 = s.2 + r * (x 1 - s.2)) (t u : Option ℝ) :
    BOT.h (some [s]) (.v v) t u = BOT.h (some [s]) (.v x) t u := by
  have e : ∀ z : Fin 4 → ℝ, BOT.h (some [s]) (.v z) t u = _ := fun z => bearings_arg (n := 4) 0 1 [s] (by simp) z
  rw [e, e]
  congr 2
  ext i j
  have hj : [s].get j = s := by
    have : j = (0 : Fin 1) := Subsingleton.elim (α := Fin 1) j 0
    rw [this]; rfl
  simp only [of_apply, hj]
  have : (⟨v 0, v 1⟩ - ⟨s.1, s.2⟩ : ℂ) = r • (⟨x 0, x 1⟩ - ⟨s.1, s.2⟩ : ℂ) := by
    apply Complex.ext <;> simp [h0, h1]
  rw [this, Complex.real_smul, Complex.arg_real_mul _ hr]

/-- C62: one row of angles in `(-π, π]`, one column per sensor; a batch of states is measured row by row. -/
theorem C62_shape_and_range {N : ℕ} (l : List Sensor) (hl : l ≠ []) (X : Matrix (Fin N) (Fin 4) ℝ) (t u : Option ℝ) :
    ∃ Y : Matrix (Fin N) (Fin l.length) ℝ, BOT.h (some l) (.m X) t u = .ok (.m Y) ∧
      (∀ k, BOT.h (some l) (.v (X k)) t u = .ok (.m (r := 1) (of fun _ j => Y k j))) ∧
      ∀ k j, -Real.pi < Y k j ∧ Y k j ≤ Real.pi := by
  refine ⟨of fun k s => arctan2 (X k 1 - (l.get s).2) (X k 0 - (l.get s).1), ?_, fun k => ?_, fun k j => ?_⟩
  · cases l with
    | nil => exact absurd rfl hl
    | cons a l => rfl
  · exact bearings_vec (n := 4) 0 1 l hl (X k)
  · exact ⟨Complex.neg_pi_lt_arg _, Complex.arg_le_pi _⟩

example : ¬ OnLine (0, 0) (-10, 10) (10, 10) := off_horizontal rfl (by norm_num)

/-! ## C63 -/

/-- C63: behind every sensor there are positions arbitrarily close to each other whose bearings differ by almost `2π`.  The filters
subtract bearings without wrapping the difference (`Filters/KalmanFilter.py:69`, `MomentMatching/Estimator.py:77`). -/
theorem C63_bearing_jump (s : Sensor) (δ : ℝ) (hδ : 0 < δ) (t u : Option ℝ) :
    ∃ (x x' : Fin 4 → ℝ) (θ θ' : ℝ), BOT.h (some [s]) (.v x) t u = .ok (.m (r := 1) (c := 1) (of fun _ _ => θ)) ∧
      BOT.h (some [s]) (.v x') t u = .ok (.m (r := 1) (c := 1) (of fun _ _ => θ')) ∧
      (∀ i, |x i - x' i| < δ) ∧ 2 * Real.pi - δ < θ - θ' := by
  -- the two points at angles `±(π - η)` on the unit circle around the sensor
  set η := min (δ / 4) 1 with hη
  have hη0 : 0 < η := lt_min (by linarith) one_pos
  have hη1 : η ≤ 1 := min_le_right _ _
  have hη2 : η ≤ δ / 4 := min_le_left _ _
  have hpi : (3 : ℝ) < Real.pi := Real.pi_gt_three
  have e : ∀ z : Fin 4 → ℝ, BOT.h (some [s]) (.v z) t u = .ok (.m (r := 1) (c := 1)
      (of fun _ _ => Complex.arg (⟨z 0, z 1⟩ - ⟨s.1, s.2⟩))) := fun z => by
    refine (bearings_arg (n := 4) 0 1 [s] (by simp) z).trans ?_
    congr 2
    ext i j
    have : j = (0 : Fin 1) := Subsingleton.elim (α := Fin 1) j 0
    rw [this]; rfl
  have ang : ∀ θ : ℝ, θ ∈ Set.Ioc (-Real.pi) Real.pi →
      Complex.arg ((⟨s.1 + Real.cos θ, s.2 + Real.sin θ⟩ : ℂ) - ⟨s.1, s.2⟩) = θ := fun θ hθ => by
    have : ((⟨s.1 + Real.cos θ, s.2 + Real.sin θ⟩ : ℂ) - ⟨s.1, s.2⟩) = Complex.cos θ + Complex.sin θ * Complex.I := by
      apply Complex.ext
      · simp [Complex.cos_ofReal_re]
      · simp [Complex.sin_ofReal_re]
    rw [this, Complex.arg_cos_add_sin_mul_I hθ]
  refine ⟨![s.1 + Real.cos (Real.pi - η), s.2 + Real.sin (Real.pi - η), 0, 0],
    ![s.1 + Real.cos (-(Real.pi - η)), s.2 + Real.sin (-(Real.pi - η)), 0, 0], Real.pi - η, -(Real.pi - η), ?_, ?_, ?_, ?_⟩
  · rw [e]
    simp only [cons_val_zero, cons_val_one]
    rw [ang _ ⟨by linarith, by linarith⟩]
  · rw [e]
    simp only [cons_val_zero, cons_val_one]
    rw [ang _ ⟨by linarith, by linarith⟩]
  · have hs : |Real.sin η| ≤ η := by
      rw [abs_of_nonneg (Real.sin_nonneg_of_nonneg_of_le_pi hη0.le (by linarith))]
      exact Real.sin_le hη0.le
    intro i
    fin_cases i
    · simp [hδ]
    · simp only [Real.sin_neg, Real.sin_pi_sub, cons_val_one, cons_val_zero, Fin.mk_one]
      have : s.2 + Real.sin η - (s.2 + -Real.sin η) = 2 * Real.sin η := by ring
      rw [this, abs_mul, abs_of_pos (by norm_num : (0 : ℝ) < 2)]
      linarith
    · simp [hδ]
    · simp [hδ]
  · linarith

/-! ## C61 -/

/-- C61: with a measurement of shape `(1, 1)` (one row, one output) of a state with `n ≠ 1` components, `correct` with the Taylor
transform raises `ValueError`: the transform has dropped an axis of the cross covariance. -/
theorem C61_taylor_correct_single_output {env : Env} {jac : Jac} (hjac : CorrectJac jac) {n : ℕ} (hn : n ≠ 1) {g : Gaussian}
    {μ : Fin n → ℝ} {P : Matrix (Fin n) (Fin n) ℝ} (hg : HasMoments env g μ P) (k : KFS)
    (hk : k.measTransform = taylorTransform env jac) (R : Matrix (Fin 1) (Fin 1) ℝ) (hR : k.R = .m R) (t u : Option ℝ)
    {F : (Fin n → ℝ) → Fin 1 → ℝ} (hf : RowFunc (fun x => k.measurement x t u) F)
    {F' : (Fin n → ℝ) →L[ℝ] (Fin 1 → ℝ)} (hF : HasFDerivAt F F' μ) (meas : Arr) :
    k.correct env g meas t u = .error .value := by
  have hT := C17_taylor_rows_single_output hjac hn hg hf hF
  simp only [KFS.correct, hk, hT, ok_bind, hR]
  generalize jacMat F' 0 ⬝ᵥ P *ᵥ jacMat F' 0 = c
  obtain ⟨M, e⟩ : ∃ M : Matrix (Fin 1) (Fin 1) ℝ, (Arr.s c).iadd (.m R) = .ok (.m M) := ⟨_, rfl⟩
  rw [e]
  simp only [ok_bind, Arr.T_v, npSolve]
  rw [dif_pos trivial, dif_neg (fun h => hn h.symm)]
  rfl

/-- C61: an extended Kalman filter for the tracking model with one bearing sensor therefore fails at the first measurement, wherever
the predicted position has a well-defined derivative of the bearing (not on the ray behind the sensor). -/
theorem C61_one_sensor_ekf_fails {env : Env} {jac : Jac} (hjac : CorrectJac jac) {g : Gaussian}
    {μ : Fin 4 → ℝ} {P : Matrix (Fin 4) (Fin 4) ℝ} (hg : HasMoments env g μ P) (k : KFS)
    (hk : k.measTransform = taylorTransform env jac) (R : Matrix (Fin 1) (Fin 1) ℝ) (hR : k.R = .m R) (s : Sensor)
    (hm : k.measurement = BOT.h (some [s])) (hpos : s.1 < μ 0 ∨ μ 1 ≠ s.2) (meas : Arr) (t u : Option ℝ) :
    k.correct env g meas t u = .error .value := by
  set F : (Fin 4 → ℝ) → Fin 1 → ℝ := fun x _ => arctan2 (x 1 - s.2) (x 0 - s.1) with hFdef
  have hf : RowFunc (fun x => k.measurement x t u) F := fun x => by
    rw [hm]
    refine (bearings_vec (n := 4) 0 1 [s] (by simp) x).trans ?_
    congr 2
    ext i j
    have : j = (0 : Fin 1) := Subsingleton.elim (α := Fin 1) j 0
    rw [this]; rfl
  have hd : DifferentiableAt ℝ F μ := by
    rw [differentiableAt_pi]
    intro _
    have h1 : DifferentiableAt ℝ (fun x : Fin 4 → ℝ => (⟨x 0 - s.1, x 1 - s.2⟩ : ℂ)) μ := by
      have : (fun x : Fin 4 → ℝ => (⟨x 0 - s.1, x 1 - s.2⟩ : ℂ)) =
          fun x => ((x 0 - s.1 : ℝ) : ℂ) + ((x 1 - s.2 : ℝ) : ℂ) * Complex.I := by
        funext x; apply Complex.ext <;> simp
      rw [this]
      have c : ∀ f : (Fin 4 → ℝ) → ℝ, DifferentiableAt ℝ f μ → DifferentiableAt ℝ (fun x => ((f x : ℝ) : ℂ)) μ :=
        fun f hf => Complex.ofRealCLM.differentiableAt.comp μ hf
      exact (c _ (by fun_prop)).add ((c _ (by fun_prop)).mul_const _)
    have h2 : DifferentiableAt ℝ Complex.arg (⟨μ 0 - s.1, μ 1 - s.2⟩ : ℂ) := by
      have hz : (⟨μ 0 - s.1, μ 1 - s.2⟩ : ℂ) ∈ Complex.slitPlane :=
        hpos.imp (fun h => sub_pos.2 h) fun h => sub_ne_zero.2 h
      have e : Complex.arg = Complex.imCLM ∘ Complex.log := by
        funext z; exact (Complex.log_im z).symm
      rw [e]
      exact Complex.imCLM.differentiableAt.comp _ ((Complex.differentiableAt_log hz).restrictScalars ℝ)
    exact h2.comp μ h1
  exact C61_taylor_correct_single_output hjac (by norm_num) hg k hk R hR t u hf hd.hasFDerivAt meas

/-- A tracking target at the origin, seen by a sensor at `(-10, -10)`: the hypotheses of C61 can be met. -/
example (meas : Arr) : (KFS.correct calmEnv
    { transform := taylorTransform calmEnv exactJac, measTransform := taylorTransform calmEnv exactJac,
      transition := BOT.f 1, measurement := BOT.h (some [(-10, -10)]), Q := .m (1 : Matrix (Fin 4) (Fin 4) ℝ),
      R := .m (1 : Matrix (Fin 1) (Fin 1) ℝ), initState := Gaussian.ofMoment (.v (0 : Fin 4 → ℝ)) (.m (1 : Matrix (Fin 4) (Fin 4) ℝ)),
      dt := 1 } (Gaussian.ofMoment (.v (0 : Fin 4 → ℝ)) (.m (1 : Matrix (Fin 4) (Fin 4) ℝ))) meas none none) = .error .value :=
  C61_one_sensor_ekf_fails exactJac_correct (hasMoments_ofMoment _ _ _) _ rfl 1 rfl _ rfl (.inl (by norm_num)) meas none none

end Verif
