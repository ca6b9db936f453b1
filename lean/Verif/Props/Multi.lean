import Verif.Props.Accuracy
import Verif.Props.Bearings
import Verif.Props.DefaultSweep
import Verif.Props.L96
import Verif.Props.Metrics
import Verif.Props.Systems

/-!
# Expectation propagation with unscented transforms in several dimensions (C41, C74)
-/

namespace Verif

open Matrix Gaussian Node

variable {env : Env} {n k : ℕ}

theorem diag_form_psd {N a : ℕ} {w : Fin N → ℝ} (hw : ∀ l, 0 ≤ w l) (Z : Matrix (Fin N) (Fin a) ℝ) : (Zᵀ * diagonal w * Z).PosSemidef := by
  have h := (Matrix.posSemidef_diagonal_iff.2 hw : (diagonal w).PosSemidef).conjTranspose_mul_mul_same Z
  simpa [conjTranspose_eq_transpose_of_trivial] using h

theorem diag_form {N a b : ℕ} (w : Fin N → ℝ) (Z : Matrix (Fin N) (Fin a) ℝ) (Z' : Matrix (Fin N) (Fin b) ℝ) :
    Zᵀ * diagonal w * Z' = of fun i j => ∑ l, w l * Z l i * Z' l j := by
  ext i j
  rw [mul_apply]
  simp only [mul_diagonal, transpose_apply, of_apply]
  exact Finset.sum_congr rfl fun l _ => by ring

/-- The unscented transform with nonnegative covariance weights returns the moments of a linear function plus independent noise, whatever
the function is (statistical linear regression over the sigma points). -/
theorem unscented_linearises {alpha beta kappa : ℝ} {u : UT} (hu : UT.init n alpha beta kappa = .ok u) (hpos : 0 < alpha ^ 2 * (n + kappa))
    (hw : 0 ≤ (alpha ^ 2 * (n + kappa) - n) / (alpha ^ 2 * (n + kappa)) + 1 - alpha ^ 2 + beta) {f : Func}
    {F : (Fin n → ℝ) → Fin k → ℝ} (hf : OnRows f F) : LinearisesOn env (u.transform env) f n k := by
  intro g μ P hg hP
  obtain ⟨Y, σ, hσ, -, h⟩ := ut_rows hu hpos hg hP hf
  have hc : ∀ l, 0 ≤ UT.covWeights n alpha beta kappa l := by
    intro i
    have e : (n : ℝ) + (alpha * alpha * (n + kappa) - n) = alpha ^ 2 * (n + kappa) := by ring
    simp only [UT.covWeights, e]
    split
    · refine hw.trans (le_of_eq ?_); ring
    · positivity
  have hD : (of fun l j => σ l j - μ j)ᵀ * diagonal (UT.covWeights n alpha beta kappa) * (of fun l j => σ l j - μ j) = P := by
    have hpos' : 0 < alpha * alpha * (n + kappa) := by rwa [← sq]
    rw [diag_form]
    ext i j
    simp only [of_apply]
    rw [sum_ut]
    simp only [hσ, sigmaMat_centre, sigmaMat_plus, sigmaMat_minus, UT.covWeights]
    simp only [Fin.val_castAdd, Fin.val_natAdd, Fin.val_zero, if_true, Nat.add_eq_zero_iff, one_ne_zero, false_and, if_false]
    have hU := congrFun (congrFun (cholU_spec hP).mul_eq i) j
    rw [mul_apply] at hU
    rw [← hU]
    simp only [transpose_apply, sub_self, mul_zero, zero_add, add_sub_cancel_left, sub_sub_cancel_left]
    rw [← Finset.sum_add_distrib]
    refine Finset.sum_congr rfl fun r _ => ?_
    have h1 := Real.sq_sqrt hpos'.le
    have e : (n : ℝ) + (alpha * alpha * (n + kappa) - n) = alpha * alpha * (n + kappa) := by ring
    rw [e]
    generalize Real.sqrt (alpha * alpha * (n + kappa)) = q at *
    have h0 := hpos'.ne'
    rw [← h1] at h0 ⊢
    have h2 : q ≠ 0 := fun h => h0 (by rw [h]; norm_num)
    field_simp
    ring
  have hS := diag_form (UT.covWeights n alpha beta kappa) (of fun l j => Y l j - (UT.meanWeights n alpha kappa ᵥ* Y) j)
    (of fun l j => Y l j - (UT.meanWeights n alpha kappa ᵥ* Y) j)
  have hC := diag_form (UT.covWeights n alpha beta kappa) (of fun l j => σ l j - μ j)
    (of fun l j => Y l j - (UT.meanWeights n alpha kappa ᵥ* Y) j)
  simp only [of_apply] at hS hC
  rw [← hS, ← hC] at h
  generalize UT.covWeights n alpha beta kappa = w at *
  generalize (of fun l j => σ l j - μ j : Matrix (Fin (1 + n + n)) (Fin n) ℝ) = D at *
  generalize hV : (of fun l j => Y l j - (UT.meanWeights n alpha kappa ᵥ* Y) j : Matrix (Fin (1 + n + n)) (Fin k) ℝ) = V at *
  have hPu := posDef_isUnit hP
  have hPs := posDef_symm hP
  have hPis := posDef_inv_symm hP
  set H : Matrix (Fin k) (Fin n) ℝ := (Dᵀ * diagonal w * V)ᵀ * P⁻¹ with hH
  have hHt : P * Hᵀ = Dᵀ * diagonal w * V := by
    rw [hH, transpose_mul, transpose_transpose, hPis, ← Matrix.mul_assoc, mul_nonsing_inv _ hPu, Matrix.one_mul]
  refine ⟨_, UT.meanWeights n alpha kappa ᵥ* Y, H, (V - D * Hᵀ)ᵀ * diagonal w * (V - D * Hᵀ), .inl rfl, diag_form_psd hc _, ?_⟩
  rw [h, hHt]
  refine congrArg (fun S => Except.ok (Arr.v (UT.meanWeights n alpha kappa ᵥ* Y), Arr.m S, Arr.m (Dᵀ * diagonal w * V))) ?_
  have e1 : Vᵀ * diagonal w * D = H * P := by
    have := congrArg transpose hHt
    rw [transpose_mul, transpose_transpose, hPs, transpose_mul, transpose_mul, transpose_transpose, diagonal_transpose,
      ← Matrix.mul_assoc] at this
    exact this.symm
  have : (V - D * Hᵀ)ᵀ * diagonal w * (V - D * Hᵀ) = Vᵀ * diagonal w * V - (Vᵀ * diagonal w * D) * Hᵀ - H * (Dᵀ * diagonal w * V) +
      H * (Dᵀ * diagonal w * D) * Hᵀ := by
    rw [transpose_sub, transpose_mul, transpose_transpose]
    simp only [Matrix.sub_mul, Matrix.mul_sub, Matrix.mul_assoc]
    abel
  rw [this, e1, ← hHt, hD, ← Matrix.mul_assoc]
  abel

/-- **C41.** Expectation propagation with unscented transforms with nonnegative weights on a state space of dimension two or more: the
very first pass raises `ValueError`, whatever the transition and measurement functions, the power and the damping are. -/
theorem C41_ep_aborts_nonlinear {N : ℕ} {α β κ α' β' κ' : ℝ} {u w : UT} (hu : UT.init n α β κ = .ok u) (hw : UT.init n α' β' κ' = .ok w)
    (hpos : 0 < α ^ 2 * (n + κ)) (hpos' : 0 < α' ^ 2 * (n + κ'))
    (hwt : 0 ≤ (α ^ 2 * (n + κ) - n) / (α ^ 2 * (n + κ)) + 1 - α ^ 2 + β)
    (hwt' : 0 ≤ (α' ^ 2 * (n + κ') - n) / (α' ^ 2 * (n + κ')) + 1 - α' ^ 2 + β') {e : Estimator} {sys : Sys} {ys : List Arr}
    (hsys : Proper env n k sys ys) (hN : 2 ≤ N) (hn : 2 ≤ n)
    (hcalm : ∀ A : Matrix (Fin n) (Fin n) ℝ, env.illPos A = false) (hp : 0 < e.power) (hγ : 0 ≤ e.damping)
    (hQ : e.Q = some sys.Q) (hR : e.R = some sys.R) (he : e.transMap = u.transform env) (he' : e.measMap = w.transform env)
    {F : ℝ → (Fin n → ℝ) → Fin n → ℝ} (hF : ∀ t, OnRows (fun x => sys.transition x (some t) (some 0)) (F t))
    {G : (Fin n → ℝ) → Fin k → ℝ} (hG : OnRows (fun x => sys.measurement x none none) G) (h : Heap) :
    (firstPass env N n e sys ys h).1 = .error .value := by
  refine firstPass_aborts hsys hN hcalm (by omega) hp hγ hQ hR ?_ ?_ ?_ h
  · rw [he]; exact unscented_linearises hu hpos hwt (hF 0)
  · rw [he']; exact unscented_linearises hw hpos' hwt' hG
  · rw [he]
    obtain ⟨-, rfl⟩ := ut_init hu
    have hn1 : n ≠ 1 := by omega
    refine C41_unscented (env := env) (k := n) (u := ⟨n, _, _, _⟩) (f := fun x => sys.transition x (some sys.dt) (some 0)) ?_ hn1
      (fun N X => ⟨_, hF sys.dt N X⟩)
    rw [sq] at hpos
    simpa using hpos.le

/-! ## C74 -/

/-- **C74.** `power_sweep` on a system of dimension two or more with an identifier that selects the unscented transform raises
`ValueError` for every seed, power and damping, and writes nothing. -/
theorem C74_power_sweep {jac : Jac} (draw : Draw) {cfg : Config} (hdim : cfg.sysDim = n) (hn : 2 ≤ n)
    (hcalm : ∀ A : Matrix (Fin n) (Fin n) ℝ, env.illPos A = false) (hN : 2 ≤ cfg.timesteps) (hiter : 1 ≤ cfg.numIter)
    (x : List Arr) {ys : List Arr} (hsys : Proper env n k cfg.system ys)
    {F : ℝ → (Fin n → ℝ) → Fin n → ℝ} (hF : ∀ t, OnRows (fun x => cfg.system.transition x (some t) (some 0)) (F t))
    {G : (Fin n → ℝ) → Fin k → ℝ} (hG : OnRows (fun x => cfg.system.measurement x none none) G)
    (seed : ℤ) {type : String} (ht : ¬ SameLetters type "TT") (ht' : ¬ SameLetters type "MCT") {power damping : ℝ} (hp : 0 < power)
    (hγ : 0 ≤ damping) (conn : Conn) :
    powerSweep env jac draw cfg x ys seed ⟨type, power, damping⟩ conn = (.error .value, conn) := by
  obtain ⟨u, w, hu, hw, -, -, hsel⟩ := (C59_total type cfg.sysDim 10000).2.2 ht ht'
  refine powerSweep_aborts (s := ⟨type, power, damping⟩) hsel hN hiter x ys (fun h => by have := hsys.two; rw [h] at this; simp at this) ?_ seed conn
  rw [hdim] at hu hw ⊢
  have h0 : (0 : ℝ) ≤ n := Nat.cast_nonneg n
  have hw3 : ∀ c : ℝ, 0 < c → (0 : ℝ) ≤ (1 ^ 2 * (n + c) - n) / (1 ^ 2 * (n + c)) + 1 - 1 ^ 2 + 2 := fun c hc => by
    have : (0 : ℝ) ≤ (1 ^ 2 * (n + c) - n) / (1 ^ 2 * (n + c)) := div_nonneg (by linarith) (by linarith)
    linarith
  exact C41_ep_aborts_nonlinear hu hw (by linarith) (by linarith) (hw3 3 (by norm_num)) (hw3 2 (by norm_num)) hsys hN hn hcalm hp hγ
    rfl rfl rfl rfl hF hG _

/-- **C74.** A sweep of a system of dimension two or more whose first transform is the unscented transform dies with `ValueError` in its
first setting, unless a result for that setting is stored; the file is left as after creating the tables. -/
theorem C74_sweep {jac : Jac} (draws : Draws) {cfg : Config} (hdim : cfg.sysDim = n) (hn : 2 ≤ n)
    (hcalm : ∀ A : Matrix (Fin n) (Fin n) ℝ, env.illPos A = false) (hN : 2 ≤ cfg.timesteps) (hiter : 1 ≤ cfg.numIter)
    (hne : cfg.dynTable ≠ cfg.expTable) {seed : ℤ} (seeds : List ℤ) {data : List (Arr × Arr)} (hsim : cfg.sim seed = .ok data)
    (hsys : Proper env n k cfg.system (data.map Prod.snd))
    {F : ℝ → (Fin n → ℝ) → Fin n → ℝ} (hF : ∀ t, OnRows (fun x => cfg.system.transition x (some t) (some 0)) (F t))
    {G : (Fin n → ℝ) → Fin k → ℝ} (hG : OnRows (fun x => cfg.system.measurement x none none) G)
    {type : String} (ht : ¬ SameLetters type "TT") (ht' : ¬ SameLetters type "MCT") (types : List String) {power damping : ℝ}
    (powers dampings : List ℝ) (hp : 0 < power) (hγ : 0 ≤ damping)
    (override : Bool) (file : Tables) (drows erows : List Row) (h : Holds cfg file (drows, erows))
    (hrun : override = true ∨ ¬ ∃ r ∈ erows, Marks seed ⟨type, power, damping⟩ r) :
    ∃ c, sweepMain env jac draws cfg (seed :: seeds) (type :: types) (power :: powers) (damping :: dampings) override (Conn.connect file) =
        (.error .value, c) ∧ c.saved cfg.dynTable = some (dynTable drows) ∧ c.saved cfg.expTable = some (expTable erows) ∧
      ∀ n, n ≠ cfg.dynTable → n ≠ cfg.expTable → c.saved n = file n :=
  sweepMain_aborts hne seeds types powers dampings hsim (fun h => by have := hsys.two; rw [h] at this; simp at this) (fun conn =>
    C74_power_sweep (draws seed []) hdim hn hcalm hN hiter _ hsys hF hG seed ht ht' hp hγ conn) override file drows erows h hrun

/-- A function whose rows are the images of the rows of its argument. -/
theorem onRows_of {f : Func} (h : ∀ (N : ℕ) (X : Matrix (Fin N) (Fin n) ℝ), ∃ Y : Matrix (Fin N) (Fin k) ℝ, f (.m X) = .ok (.m Y) ∧
    ∀ i, f (.v (X i)) = .ok (.m (r := 1) (of fun _ j => Y i j))) : ∃ F : (Fin n → ℝ) → Fin k → ℝ, OnRows f F := by
  choose Y h1 h2 using fun x : Fin n → ℝ => h 1 (of fun _ => x)
  refine ⟨fun x => Y x 0, fun N X => ?_⟩
  obtain ⟨Z, e1, e2⟩ := h N X
  rw [e1]
  congr 2
  ext i j
  have := (e2 i).symm.trans (h2 (X i) 0)
  simpa using congrFun (congrFun (Arr.m_inj.1 (Except.ok.inj this)) 0) j

theorem eye_smul (n : ℕ) (a : ℝ) : (Arr.eye n).smul a = .m (a • (1 : Matrix (Fin n) (Fin n) ℝ)) := rfl

theorem one_smul_posDef (n : ℕ) {a : ℝ} (ha : 0 < a) : (a • (1 : Matrix (Fin n) (Fin n) ℝ)).PosDef := Matrix.PosDef.one.smul ha

theorem IsPoint.isVec {a : Arr} {x : Fin n → ℝ} (h : IsPoint a x) : IsVec a.squeeze x := by
  rcases h with rfl | rfl
  · exact .inr rfl
  · right
    by_cases hn : n = 1
    · subst hn; rfl
    · simp [Arr.squeeze, hn]

/-- The Lorenz 96 system and vectors of `dim` measurements. -/
theorem l96_proper {q r dt F : ℝ} (hq : 0 < q) (hr : 0 < r) {dim : ℕ} (x : Fin dim → ℝ) {sys : Sys}
    (h : L96.init q r dt dim F (some (.v x)) = .ok sys) {ys : List Arr} (h2 : 2 ≤ ys.length)
    (hys : ∀ y ∈ ys, ∃ v : Fin dim → ℝ, IsPoint y v) : Proper env dim dim sys ys ∧
      (∃ Φ : ℝ → (Fin dim → ℝ) → Fin dim → ℝ, ∀ t, OnRows (fun x => sys.transition x (some t) (some 0)) (Φ t)) ∧
      ∃ G : (Fin dim → ℝ) → Fin dim → ℝ, OnRows (fun x => sys.measurement x none none) G := by
  have e : L96.init q r dt dim F (some (.v x)) = Sys.make dim dim (L96.f dt F) L96.h (.init dim (some ((Arr.eye dim).smul q)) none)
      (.init dim (some ((Arr.eye dim).smul r)) none) (Gaussian.ofMoment (.v x) (Arr.eye dim)) 1 := by
    simp only [L96.init, ok_bind, Arr.shape0_v, ne_eq, not_true_eq_false, if_false]
  rw [e, Sys.make, if_pos ⟨rfl, rfl⟩, Except.ok.injEq] at h
  subst h
  refine ⟨⟨h2, fun y hy => ?_, ⟨x, 1, hasMoments_ofMoment .., Matrix.PosDef.one⟩, ⟨_, rfl, one_smul_posDef dim hq⟩, ⟨_, rfl, one_smul_posDef dim hr⟩⟩, ?_, ?_⟩
  · obtain ⟨v, hv⟩ := hys y hy
    exact ⟨v, hv.isVec⟩
  · choose Φ hΦ using fun t : ℝ => onRows_of (f := fun x => L96.f dt F x (some t) (some 0)) fun N X => C53_step_rows dt F X _ _
    exact ⟨Φ, hΦ⟩
  · exact ⟨fun x j => x j ^ 2, fun N X => rfl⟩

/-- Bearings-only tracking with some sensors, and one bearing per sensor and measurement. -/
theorem bot_proper {q r dt : ℝ} (hq : 0 < q) (hr : 0 < r) (hd : 0 < dt) {l : List Sensor} (hl : l ≠ []) {sys : Sys}
    (h : BOT.init q r (some l) dt = .ok sys) {ys : List Arr} (h2 : 2 ≤ ys.length)
    (hys : ∀ y ∈ ys, ∃ v : Fin l.length → ℝ, IsPoint y v) : Proper env 4 l.length sys ys ∧
      (∃ Φ : ℝ → (Fin 4 → ℝ) → Fin 4 → ℝ, ∀ t, OnRows (fun x => sys.transition x (some t) (some 0)) (Φ t)) ∧
      ∃ G : (Fin 4 → ℝ) → Fin l.length → ℝ, OnRows (fun x => sys.measurement x none none) G := by
  obtain ⟨sys', Q, h', hQ, hQ'⟩ := C56_noise_posDef dt q r (some l) hd hq
  rw [h, Except.ok.injEq] at h'
  subst h'
  have hs := h
  rw [BOT.init, Sys.make, if_pos ⟨rfl, rfl⟩, Except.ok.injEq] at h
  refine ⟨⟨h2, fun y hy => ?_, ?_, ⟨Q, hQ, hQ'⟩, ?_⟩, ?_, ?_⟩
  · obtain ⟨v, hv⟩ := hys y hy
    exact ⟨v, hv.isVec⟩
  · rw [← h]
    exact ⟨_, (0.1 : ℝ) • 1, hasMoments_ofMoment .., one_smul_posDef 4 (by norm_num)⟩
  · rw [← h]
    exact ⟨_, rfl, one_smul_posDef _ hr⟩
  · rw [← h]
    choose Φ hΦ using fun t : ℝ => onRows_of (f := fun x => BOT.f dt x (some t) (some 0)) fun N X => by
      obtain ⟨Y, h1, h2, -⟩ := C56_constant_velocity dt X (some t) (some 0)
      exact ⟨Y, h1, h2⟩
    exact ⟨Φ, hΦ⟩
  · rw [← h]
    exact onRows_of (f := fun x => BOT.h (some l) x none none) fun N X => by
      obtain ⟨Y, h1, h2, -⟩ := C62_shape_and_range l hl X none none
      exact ⟨Y, h1, h2⟩

/-- **C74.** Lorenz 96 in every dimension from two on. -/
theorem C74_lorenz {q r dt F : ℝ} (hq : 0 < q) (hr : 0 < r) {dim : ℕ} (hn : 2 ≤ dim) (x : Fin dim → ℝ) {jac : Jac} (draw : Draw)
    {cfg : Config} (hsys : L96.init q r dt dim F (some (.v x)) = .ok cfg.system) (hdim : cfg.sysDim = dim)
    (hcalm : ∀ A : Matrix (Fin dim) (Fin dim) ℝ, env.illPos A = false) (hN : 2 ≤ cfg.timesteps) (hiter : 1 ≤ cfg.numIter)
    (xs : List Arr) {ys : List Arr} (h2 : 2 ≤ ys.length) (hys : ∀ y ∈ ys, ∃ v : Fin dim → ℝ, IsPoint y v) (seed : ℤ) {power damping : ℝ}
    (hp : 0 < power) (hγ : 0 ≤ damping) (conn : Conn) :
    powerSweep env jac draw cfg xs ys seed ⟨"UT", power, damping⟩ conn = (.error .value, conn) := by
  obtain ⟨h1, ⟨Φ, hΦ⟩, ⟨G, hG⟩⟩ := l96_proper (env := env) hq hr x hsys h2 hys
  exact C74_power_sweep draw hdim hn hcalm hN hiter xs h1 hΦ hG seed (by unfold SameLetters; decide) (by unfold SameLetters; decide) hp hγ
    conn

/-- **C74.** Constant velocity tracking with any sensors. -/
theorem C74_bearings {q r dt : ℝ} (hq : 0 < q) (hr : 0 < r) (hd : 0 < dt) {l : List Sensor} (hl : l ≠ []) {jac : Jac} (draw : Draw)
    {cfg : Config} (hsys : BOT.init q r (some l) dt = .ok cfg.system) (hdim : cfg.sysDim = 4)
    (hcalm : ∀ A : Matrix (Fin 4) (Fin 4) ℝ, env.illPos A = false) (hN : 2 ≤ cfg.timesteps) (hiter : 1 ≤ cfg.numIter)
    (xs : List Arr) {ys : List Arr} (h2 : 2 ≤ ys.length) (hys : ∀ y ∈ ys, ∃ v : Fin l.length → ℝ, IsPoint y v) (seed : ℤ)
    {power damping : ℝ} (hp : 0 < power) (hγ : 0 ≤ damping) (conn : Conn) :
    powerSweep env jac draw cfg xs ys seed ⟨"UT", power, damping⟩ conn = (.error .value, conn) := by
  obtain ⟨h1, ⟨Φ, hΦ⟩, ⟨G, hG⟩⟩ := bot_proper (env := env) hq hr hd hl hsys h2 hys
  exact C74_power_sweep draw hdim (by norm_num) hcalm hN hiter xs h1 hΦ hG seed (by unfold SameLetters; decide)
    (by unfold SameLetters; decide) hp hγ conn

/-- A sweep of the three-dimensional Lorenz 96 system on an empty database. -/
example (draws : Draws) (jac : Jac) : ∃ sys, L96.init 0.1 1 0.05 3 8 (some (.v ![8.01, 8, 8])) = .ok sys ∧
    ∃ c, sweepMain calmEnv jac draws
      { system := sys, timesteps := 2, sysDim := 3, numIter := 50, dynTable := "L96_SIM", expTable := "L96_EXP"
        sim := fun _ => .ok [(.v ![1, 2, 3], .v ![4, 5, 6]), (.v ![1, 2, 3], .v ![7, 8, 9])] }
      [101] ["UT", "MCT"] [0.1, 0.2] [1, 0.8] false (Conn.connect fun _ => none) = (.error .value, c) ∧
      c.saved "L96_SIM" = some (dynTable []) ∧ c.saved "L96_EXP" = some (expTable []) := by
  obtain ⟨sys, hs, -⟩ := C54_stored_works 0.1 1 0.05 8 ![8.01, 8, 8]
  obtain ⟨h1, ⟨Φ, hΦ⟩, ⟨G, hG⟩⟩ := l96_proper (env := calmEnv) (by norm_num) one_pos _ hs (ys := [.v ![4, 5, 6], .v ![7, 8, 9]])
    (by simp) (by simp [IsPoint])
  obtain ⟨c, h1, h2, h3, -⟩ := C74_sweep (env := calmEnv) (jac := jac) draws (cfg :=
      { system := sys, timesteps := 2, sysDim := 3, numIter := 50, dynTable := "L96_SIM", expTable := "L96_EXP"
        sim := fun _ => .ok [(.v ![1, 2, 3], .v ![4, 5, 6]), (.v ![1, 2, 3], .v ![7, 8, 9])] }) rfl (by norm_num) (fun _ => rfl)
    (by norm_num) (by norm_num) (by simp) (seed := 101) [] rfl h1 hΦ hG (type := "UT") (by unfold SameLetters; decide)
    (by unfold SameLetters; decide) ["MCT"] (power := 0.1) (damping := 1) [0.2] [0.8]
    (by norm_num) zero_le_one false (fun _ => none) [] [] ⟨.inr ⟨rfl, rfl⟩, .inr ⟨rfl, rfl⟩⟩ (.inr (by simp))
  exact ⟨sys, hs, c, h1, h2, h3⟩

end Verif
