import Verif.Props.Accuracy
import Verif.Props.Kalman
import Verif.Props.FirstPass
import Mathlib.Analysis.Calculus.Deriv.Basic

/-!
# Squared measurements (C72) and the test system (C73)
-/

namespace Verif

open Matrix

variable {env : Env} {n k : ℕ}

/-! ## C72 -/

/-- `F` takes equal values on opposite sides of `μ`. -/
def EvenAt (F : (Fin n → ℝ) → Fin k → ℝ) (μ : Fin n → ℝ) : Prop := ∀ d, F (μ + d) = F (μ - d)

/-- **C72.** The unscented transform finds no covariance between the state and a function that is even about the mean. -/
theorem C72_unscented_even {alpha beta kappa : ℝ} {u : UT} (hu : UT.init n alpha beta kappa = .ok u)
    (hpos : 0 < alpha ^ 2 * (n + kappa)) {g : Gaussian} {μ : Fin n → ℝ} {P : Matrix (Fin n) (Fin n) ℝ} (hg : HasMoments env g μ P)
    (hP : P.PosDef) {func : Func} {F : (Fin n → ℝ) → Fin k → ℝ} (hf : OnRows func F) (hF : EvenAt F μ) :
    ∃ (m : Fin k → ℝ) (S : Matrix (Fin k) (Fin k) ℝ), u.transform env func g = .ok (.v m, .m S, .m (0 : Matrix (Fin n) (Fin k) ℝ)) := by
  obtain ⟨Y, σ, hσ, hY, h⟩ := ut_rows hu hpos hg hP hf
  rw [show (of fun i j => ∑ l, UT.covWeights n alpha beta kappa l * (σ l i - μ i) * (Y l j - (UT.meanWeights n alpha kappa ᵥ* Y) j)) =
    (0 : Matrix (Fin n) (Fin k) ℝ) from ?_] at h
  · exact ⟨_, _, h⟩
  ext i j
  simp only [of_apply, Matrix.zero_apply]
  generalize (UT.meanWeights n alpha kappa ᵥ* Y) j = E
  rw [sum_ut]
  have e : ∀ r : Fin n, F (fun j => μ j + Real.sqrt (alpha * alpha * (n + kappa)) * cholU hP r j) =
      F (fun j => μ j - Real.sqrt (alpha * alpha * (n + kappa)) * cholU hP r j) := fun r =>
    hF fun j => Real.sqrt (alpha * alpha * (n + kappa)) * cholU hP r j
  simp only [hY, hσ, of_apply, sigmaMat_centre, sigmaMat_plus, sigmaMat_minus, e, UT.covWeights]
  simp only [Fin.val_castAdd, Fin.val_natAdd, Fin.val_zero, if_true, Nat.add_eq_zero_iff, one_ne_zero, false_and, if_false]
  rw [add_assoc, ← Finset.sum_add_distrib, Finset.sum_eq_zero fun r _ => by ring]
  simp

theorem EvenAt.fderiv_zero {F : (Fin n → ℝ) → Fin k → ℝ} {μ : Fin n → ℝ} (hF : EvenAt F μ)
    {F' : (Fin n → ℝ) →L[ℝ] (Fin k → ℝ)} (hd : HasFDerivAt F F' μ) : F' = 0 := by
  have h1 : HasFDerivAt (fun d => F (μ + d)) F' 0 := by
    have := HasFDerivAt.comp (0 : Fin n → ℝ) (g := F) (f := fun d => μ + d) (by rw [add_zero]; exact hd) ((hasFDerivAt_id 0).const_add μ)
    simpa [Function.comp_def] using this
  have h2 : HasFDerivAt (fun d => F (μ - d)) (-F') 0 := by
    have := HasFDerivAt.comp (0 : Fin n → ℝ) (g := F) (f := fun d => μ - d) (by rw [sub_zero]; exact hd) ((hasFDerivAt_id 0).const_sub μ)
    have e : F'.comp (-ContinuousLinearMap.id ℝ (Fin n → ℝ)) = -F' := by ext; simp
    rw [e] at this
    exact this
  have h3 : (fun d => F (μ + d)) = fun d => F (μ - d) := funext hF
  rw [h3] at h1
  have := h1.unique h2
  have h4 : (2 : ℝ) • F' = 0 := by rw [two_smul]; nth_rewrite 1 [this]; simp
  exact (smul_eq_zero.1 h4).resolve_left two_ne_zero

private theorem correct_blind {K : KFS} {t v : Option ℝ} {g : Gaussian} {μ : Fin n → ℝ} {P : Matrix (Fin n) (Fin n) ℝ}
    (hg : HasMoments env g μ P) {z : Arr} {zv : Fin k → ℝ} {S R : Matrix (Fin k) (Fin k) ℝ}
    (hT : K.measTransform (fun x => K.measurement x t v) g = .ok (z, .m S, .m (0 : Matrix (Fin n) (Fin k) ℝ))) (hz : IsVec z zv)
    (hS : S.PosSemidef) (hR : K.R = .m R) (hR' : R.PosDef) {meas : Arr} {y : Fin k → ℝ} (hy : IsVec meas y) :
    ∃ r, K.correct env g meas t v = .ok r ∧ HasMoments env r μ P := by
  refine ⟨_, KFS.correct_of hg hT hz hy hR (posDef_det_ne (hR'.posSemidef_add hS)), ?_⟩
  have := hasMoments_ofMoment env μ P
  simpa using this

/-- **C72.** The unscented filter with nonnegative covariance weights learns nothing from a measurement function that is even about the
predicted mean: `correct` returns mean and covariance unchanged, whatever was measured. -/
theorem C72_ukf_unchanged {alpha beta kappa : ℝ} {u : UT} (hu : UT.init n alpha beta kappa = .ok u)
    (hpos : 0 < alpha ^ 2 * (n + kappa)) (hw : 0 ≤ (alpha ^ 2 * (n + kappa) - n) / (alpha ^ 2 * (n + kappa)) + 1 - alpha ^ 2 + beta)
    {K : KFS} (hK : K.measTransform = u.transform env) {t v : Option ℝ} {F : (Fin n → ℝ) → Fin k → ℝ}
    (hf : OnRows (fun x => K.measurement x t v) F) {R : Matrix (Fin k) (Fin k) ℝ} (hR : K.R = .m R) (hR' : R.PosDef)
    {g : Gaussian} {μ : Fin n → ℝ} {P : Matrix (Fin n) (Fin n) ℝ} (hg : HasMoments env g μ P) (hP : P.PosDef) (hF : EvenAt F μ)
    {meas : Arr} {y : Fin k → ℝ} (hy : IsVec meas y) : ∃ r, K.correct env g meas t v = .ok r ∧ HasMoments env r μ P := by
  obtain ⟨m, S, h⟩ := C72_unscented_even hu hpos hg hP hf hF
  obtain ⟨_, hS⟩ := (C16_unscented_cov_symmetric_psd hu _ _ h).2 hpos hw
  exact correct_blind hg (by rw [hK]; exact h) (.inl rfl) hS hR hR' hy

/-- **C72.** So does the extended filter, for differentiable functions (with values of shape `(k,)`, or `(1, k)` if neither dimension is
one). -/
theorem C72_ekf_unchanged {jac : Jac} (hjac : CorrectJac jac) {K : KFS} (hK : K.measTransform = taylorTransform env jac)
    {t v : Option ℝ} {F : (Fin n → ℝ) → Fin k → ℝ}
    (hf : VecFunc (fun x => K.measurement x t v) F ∨ (RowFunc (fun x => K.measurement x t v) F ∧ n ≠ 1 ∧ k ≠ 1))
    {R : Matrix (Fin k) (Fin k) ℝ} (hR : K.R = .m R) (hR' : R.PosDef) {g : Gaussian} {μ : Fin n → ℝ} {P : Matrix (Fin n) (Fin n) ℝ}
    (hg : HasMoments env g μ P) (hF : EvenAt F μ) (hd : DifferentiableAt ℝ F μ) {meas : Arr} {y : Fin k → ℝ} (hy : IsVec meas y) :
    ∃ r, K.correct env g meas t v = .ok r ∧ HasMoments env r μ P := by
  have hd' := hd.hasFDerivAt
  have h0 := hF.fderiv_zero hd'
  have hJ : jacMat (fderiv ℝ F μ) = 0 := by rw [h0]; ext; simp
  have hS : (0 : Matrix (Fin k) (Fin k) ℝ).PosSemidef := Matrix.PosSemidef.zero
  rcases hf with hf | ⟨hf, hn, hk⟩
  · have h := C17_taylor_linearises hjac hg hf hd'
    rw [hJ] at h
    simp only [transpose_zero, Matrix.mul_zero] at h
    exact correct_blind hg (zv := F μ) (by rw [hK]; exact h) (.inr rfl) hS hR hR' hy
  · have h := C17_taylor_linearises_rows hjac hn hk hg hf hd'
    rw [hJ] at h
    simp only [transpose_zero, Matrix.mul_zero] at h
    exact correct_blind hg (by rw [hK]; exact h) (.inl rfl) hS hR hR' hy

/-- **C72.** The measurements of the Lorenz model and of the growth model leave the signs of all components open, and nothing else. -/
theorem C72_signs_hidden {r c : ℕ} (X Y : Matrix (Fin r) (Fin c) ℝ) (t u : Option ℝ) :
    (L96.h (.m X) t u = L96.h (.m Y) t u ↔ ∀ i j, |X i j| = |Y i j|) ∧
    (UNGM.h (.m X) t u = UNGM.h (.m Y) t u ↔ ∀ i j, |X i j| = |Y i j|) := by
  have key : ∀ (φ : ℝ → ℝ), ((Except.ok (Arr.m (Matrix.of fun i j => φ (X i j))) : Py Arr) = .ok (.m (Matrix.of fun i j => φ (Y i j))) ↔
      ∀ i j, φ (X i j) = φ (Y i j)) := fun φ => by
    rw [Except.ok.injEq, Arr.m.injEq]
    simp only [heq_eq_eq, true_and]
    rw [← Matrix.ext_iff]
    rfl
  constructor
  · have hL : ∀ Z : Matrix (Fin r) (Fin c) ℝ, L96.h (.m Z) t u = .ok (.m (Matrix.of fun i j => Z i j ^ 2)) := fun _ => rfl
    rw [hL, hL]
    refine Iff.trans (key fun a => a ^ 2) ?_
    simp only [sq_eq_sq_iff_abs_eq_abs]
  · have hL : ∀ Z : Matrix (Fin r) (Fin c) ℝ, UNGM.h (.m Z) t u = .ok (.m (Matrix.of fun i j => Z i j ^ 2 / 20)) := fun _ => rfl
    rw [hL, hL]
    refine Iff.trans (key fun a => a ^ 2 / 20) ?_
    simp only [← sq_eq_sq_iff_abs_eq_abs]
    refine forall₂_congr fun i j => ?_
    constructor <;> intro h <;> linarith

theorem L96.h_rows (t u : Option ℝ) : OnRows (fun x => L96.h x t u) (fun (x : Fin n → ℝ) j => x j ^ 2) := by
  intro N X
  rfl

theorem L96.h_row (t u : Option ℝ) : RowFunc (fun x => L96.h x t u) (fun (x : Fin n → ℝ) j => x j ^ 2) := by
  intro x
  rfl

theorem square_even : EvenAt (fun (x : Fin n → ℝ) j => x j ^ 2) 0 := fun d => by funext j; simp

/-- **C72.** On the Lorenz model neither the unscented nor the extended filter moves away from a prediction with mean zero. -/
theorem C72_lorenz {sys : Sys} (hsys : sys.measurement = L96.h) {r : ℝ} (hr : 0 < r) (hR : sys.R = (Arr.eye n).smul r)
    {P : Matrix (Fin n) (Fin n) ℝ} {g : Gaussian} (hg : HasMoments env g 0 P) (hP : P.PosDef) {meas : Arr} {y : Fin n → ℝ} (hy : IsVec meas y)
    (t v : Option ℝ) :
    (∀ {alpha beta kappa : ℝ} {u : UT} (T : Transform), UT.init n alpha beta kappa = .ok u → 0 < alpha ^ 2 * (n + kappa) →
      0 ≤ (alpha ^ 2 * (n + kappa) - n) / (alpha ^ 2 * (n + kappa)) + 1 - alpha ^ 2 + beta →
      ∃ g', (KFS.init T sys (some (u.transform env))).correct env g meas t v = .ok g' ∧ HasMoments env g' 0 P) ∧
    (∀ {jac : Jac} (T : Transform), CorrectJac jac → n ≠ 1 →
      ∃ g', (KFS.init T sys (some (taylorTransform env jac))).correct env g meas t v = .ok g' ∧ HasMoments env g' 0 P) := by
  have hRm : sys.R = .m (r • (1 : Matrix (Fin n) (Fin n) ℝ)) := hR
  have hRp : (r • (1 : Matrix (Fin n) (Fin n) ℝ)).PosDef := Matrix.PosDef.one.smul hr
  constructor
  · intro alpha beta kappa u T hu hpos hw
    exact C72_ukf_unchanged hu hpos hw (K := KFS.init T sys (some (u.transform env))) rfl
      (by show OnRows (fun x => sys.measurement x t v) _; rw [hsys]; exact L96.h_rows t v) hRm hRp hg hP square_even hy
  · intro jac T hjac hn
    exact C72_ekf_unchanged hjac (K := KFS.init T sys (some (taylorTransform env jac))) rfl
      (.inr ⟨by show RowFunc (fun x => sys.measurement x t v) _; rw [hsys]; exact L96.h_row t v, hn, hn⟩) hRm hRp hg square_even
      (by fun_prop) hy

/-- **C72.** The same for the growth model; its initial distribution has mean zero. -/
theorem C72_growth {sys : Sys} (hsys : UNGM.init = .ok sys) {p : ℝ} {g : Gaussian} (hg : HasMoments env g (v1 0) (m1 p)) (hp : 0 < p)
    {meas : Arr} {y : Fin 1 → ℝ} (hy : IsVec meas y) (t v : Option ℝ) :
    (∀ {P : UTParams} {u : UT} (T : Transform), P.Good → UT.init 1 P.a P.b P.k = .ok u →
      ∃ g', (KFS.init T sys (some (u.transform env))).correct env g meas t v = .ok g' ∧ HasMoments env g' (v1 0) (m1 p)) ∧
    (∀ {jac : Jac} (T : Transform), CorrectJac jac →
      ∃ g', (KFS.init T sys (some (taylorTransform env jac))).correct env g meas t v = .ok g' ∧ HasMoments env g' (v1 0) (m1 p)) := by
  rw [ungm_eq hsys]
  have hev : EvenAt (fun (x : Fin 1 → ℝ) (_ : Fin 1) => x 0 ^ 2 / 20) (v1 0) := fun d => by
    have : v1 (0 : ℝ) = 0 := by ext; simp
    funext j
    simp [this]
  constructor
  · intro P u T hP hu
    refine C72_ukf_unchanged hu (by simpa using hP.spread) (by have := hP.weight; push_cast; linarith) (K := KFS.init T _ (some (u.transform env))) rfl
      (F := fun x _ => x 0 ^ 2 / 20) (fun N X => ?_) rfl (m1_posDef.2 (by norm_num)) hg (m1_posDef.2 hp) hev hy
    exact ungm_h t v N X
  · intro jac T hjac
    refine C72_ekf_unchanged hjac (K := KFS.init T _ (some (taylorTransform env jac))) rfl
      (F := fun x _ => x 0 ^ 2 / 20) (.inl fun x => ?_) rfl (m1_posDef.2 (by norm_num)) hg hev (by fun_prop) hy
    refine congrArg (fun z => Except.ok (Arr.v z)) (funext fun j => by rw [Subsingleton.elim j 0])

/-- A stored initial condition at zero, forty components. -/
example : ∃ sys u g', L96.init 0.1 1 0.05 40 8 (some (.v (n := 40) 0)) = .ok sys ∧ UT.init 40 1 2 1 = .ok u ∧
    (KFS.init (u.transform calmEnv) sys (some (u.transform calmEnv))).correct calmEnv sys.initState (.v (n := 40) fun _ => 7) none none =
      .ok g' ∧ HasMoments calmEnv g' (0 : Fin 40 → ℝ) 1 := by
  obtain ⟨u, hu, -⟩ := (C14_unscented_weights 40 1 2 1).2 (by norm_num)
  have hsys : L96.init 0.1 1 0.05 40 8 (some (.v (n := 40) 0)) = .ok
      { transition := L96.f 0.05 8, measurement := L96.h, Q := (Arr.eye 40).smul 0.1, R := (Arr.eye 40).smul 1,
        initState := Gaussian.ofMoment (.v (n := 40) 0) (Arr.eye 40), dt := 1 } := by
    simp [L96.init, Sys.make, GaussianNoise.init, Arr.shape0]
  obtain ⟨g', h1, h2⟩ := (C72_lorenz (env := calmEnv) (n := 40) (sys :=
      { transition := L96.f 0.05 8, measurement := L96.h, Q := (Arr.eye 40).smul 0.1, R := (Arr.eye 40).smul 1,
        initState := Gaussian.ofMoment (.v (n := 40) 0) (Arr.eye 40), dt := 1 }) rfl one_pos rfl
    (hasMoments_ofMoment _ (0 : Fin 40 → ℝ) 1) Matrix.PosDef.one (.inl rfl : IsVec (.v (n := 40) fun _ => 7) fun _ => 7) none none).1
    (u.transform calmEnv) hu (by norm_num) (by norm_num)
  exact ⟨_, u, g', hsys, hu, h1, h2⟩

/-! ## C73 -/

/-- **C73.** The transition of the test system forgets multiples of ten, and each unit of time and of control moves it by fixed
amounts, whatever the state is. -/
theorem C73_test_transition (a t u : ℝ) (z : ℤ) :
    TestDyn.f (.s (a + 10 * z)) (some t) (some u) = TestDyn.f (.s a) (some t) (some u) ∧
    ∃ b, TestDyn.f (.s a) (some t) (some u) = .ok (.s b) ∧ 0.1 * t + 0.01 * u ≤ b ∧ b < 10 + 0.1 * t + 0.01 * u ∧
      ∀ t' u', TestDyn.f (.s a) (some t') (some u') = .ok (.s (b + 0.1 * (t' - t) + 0.01 * (u' - u))) := by
  have hz : (a + 10 * z) / 10 = a / 10 + z := by ring
  refine ⟨?_, _, rfl, ?_, ?_, fun t' u' => ?_⟩
  · simp only [TestDyn.f, Arr.map, hz, Int.floor_add_intCast]
    push_cast
    ring_nf
  · have := Int.floor_le (a / 10)
    simp only
    linarith
  · have := Int.lt_floor_add_one (a / 10)
    simp only
    linarith
  · simp only [TestDyn.f, Arr.map]
    ring_nf

theorem TestDyn.init_ok : TestDyn.init = .ok ⟨TestDyn.f, TestDyn.h, .m (m1 0), .m (m1 0), Gaussian.ofMoment (.v (v1 0)) (.m (m1 0.0001)), 1⟩ := by
  simp only [TestDyn.init, Sys.make, GaussianNoise.init, and_self, if_true, Except.ok.injEq]
  have : (fun _ : Fin 1 => (0 : ℝ)) = v1 0 := v1_ext _
  simp [Arr.eye, m1_one, m1_smul, this]
  ext i j
  simp [m1]

/-- **C73.** Without a control the transition raises `TypeError`, and with it the prediction of the unscented filter: filtering a
nonempty list of measurements without passing `u` fails, from the system's own prior and from any other with a positive variance. -/
theorem C73_filter_needs_control {sys : Sys} (hsys : TestDyn.init = .ok sys) {alpha beta kappa : ℝ} {u : UT}
    (hu : UT.init 1 alpha beta kappa = .ok u) (hpos : 0 < alpha ^ 2 * (1 + kappa)) (M : Option Transform) (y : Arr) (ys : List Arr)
    (prior : Option Gaussian) (hprior : ∀ g, prior = some g → ∃ b m p, 0 < p ∧ Mom1 env g b m p) (t0 : ℝ) :
    (KFS.init (u.transform env) sys M).kalmanFilter env (y :: ys) prior t0 none = .error .type := by
  cases TestDyn.init_ok.symm.trans hsys
  obtain ⟨b, m, p, hp, hg⟩ : ∃ b m p, 0 < p ∧ Mom1 env
      (prior.getD (Gaussian.ofMoment (.v (v1 0)) (.m (m1 0.0001)))) b m p := by
    cases prior with
    | some g => exact hprior g rfl
    | none => exact ⟨false, 0, 0.0001, by norm_num, hasMoments_ofMoment env (v1 0) (m1 0.0001)⟩
  obtain ⟨h0, rfl⟩ := ut_init hu
  have hσ := sigmaPoints_num (u := ⟨1, alpha * alpha * ((1 : ℕ) + kappa) - (1 : ℕ), UT.meanWeights 1 alpha kappa,
      (UT.wLeft (UT.meanWeights 1 alpha kappa))ᵀ * Matrix.diagonal (UT.covWeights 1 alpha beta kappa) * UT.wLeft (UT.meanWeights 1 alpha kappa)⟩) rfl
      (by push_cast; nlinarith) b (m := m) hp
  simp only [KFS.kalmanFilter, KFS.filterLoop, KFS.predict, KFS.init, UT.transform, hg.1, hg.2, ok_bind, hσ, TestDyn.f]
  rfl

/-- **C73.** With a control the prediction is that of the unscented rule for `x % 10 + 0.1 t + 0.01 u`, without added noise. -/
theorem C73_predict_with_control {sys : Sys} (hsys : TestDyn.init = .ok sys) {alpha beta kappa : ℝ} {u : UT}
    (hu : UT.init 1 alpha beta kappa = .ok u) (hpos : 0 < alpha ^ 2 * (1 + kappa)) (M : Option Transform) {g : Gaussian} {b : Bool} {m p : ℝ}
    (hp : 0 < p) (hg : Mom1 env g b m p) (t v : ℝ) :
    ∃ g', (KFS.init (u.transform env) sys M).predict g (some t) (some v) = .ok g' ∧
      HasMoments env g' (v1 ((unscented alpha beta kappa fun x => (x - 10 * ⌊x / 10⌋) + 0.1 * t + 0.01 * v).X m p))
        (m1 ((unscented alpha beta kappa fun x => (x - 10 * ⌊x / 10⌋) + 0.1 * t + 0.01 * v).S m p)) := by
  cases TestDyn.init_ok.symm.trans hsys
  have h := unscented_realises (env := env) hu hpos (f := fun x => TestDyn.f x (some t) (some v))
    (F := fun x => (x - 10 * ⌊x / 10⌋) + 0.1 * t + 0.01 * v) (fun N X => by
      simp only [TestDyn.f, Arr.map]
      exact congrArg (fun z => Except.ok (Arr.m z)) (funext fun i => funext fun j => by rw [Subsingleton.elim j 0]; rfl)) g b m p hg hp
  refine ⟨Gaussian.ofMoment (.v _) (.m (m1 _)), ?_, hasMoments_ofMoment env _ _⟩
  simp only [KFS.predict, KFS.init, h, ok_bind]
  simp

/-- The system's own prior, symmetric sigma points at distance one standard deviation. -/
example : ∃ sys u, TestDyn.init = .ok sys ∧ UT.init 1 1 0 0 = .ok u ∧
    (KFS.init (u.transform calmEnv) sys none).kalmanFilter calmEnv [.s 3] none 0 none = .error .type ∧
    ∃ g', (KFS.init (u.transform calmEnv) sys none).predict sys.initState (some 0) (some 0) = .ok g' := by
  obtain ⟨u, hu, -⟩ := (C14_unscented_weights 1 1 0 0).2 (by norm_num)
  refine ⟨_, u, TestDyn.init_ok, hu, C73_filter_needs_control TestDyn.init_ok hu (by norm_num) none _ _ none (by simp) 0, ?_⟩
  obtain ⟨g', h, -⟩ := C73_predict_with_control (env := calmEnv) TestDyn.init_ok hu (by norm_num) none (b := false) (m := 0) (p := 0.0001)
    (by norm_num) (hasMoments_ofMoment calmEnv (v1 0) (m1 0.0001)) 0 0
  exact ⟨g', h⟩

end Verif
