import Verif.Props.Even
import Verif.Props.Fallback
import Verif.Props.Simulation

/-!
# Measurements without noise and without sensors, starting points of other shapes: more of C62, C73, C78
-/

namespace Verif

open Matrix

variable {env : Env}

/-! ## C73 -/

private theorem testDyn_affine (t u : Option ℝ) : AffineRows (fun x => TestDyn.h x t u) (m1 100) (v1 0) := fun N X => by
  refine congrArg (fun z => Except.ok (Arr.m z)) ?_
  ext i j
  rw [Subsingleton.elim j 0]
  simp [Matrix.mul_apply, m1, v1, Matrix.of_apply]

/-- **C73.** The measurement is one hundred times the state and has no noise: whatever the state before, with positive variance, the
corrected state is the measurement divided by one hundred, with variance zero. -/
theorem C73_exact_measurement {sys : Sys} (hsys : TestDyn.init = .ok sys) {T : Transform} {alpha beta kappa : ℝ} {u : UT}
    (hu : UT.init 1 alpha beta kappa = .ok u) (hpos : 0 < alpha ^ 2 * (1 + kappa)) {g : Gaussian} {m p y : ℝ} (hp : 0 < p)
    (hg : HasMoments env g (v1 m) (m1 p)) {a : Arr} (ha : IsVec a (v1 y)) (t v : Option ℝ) :
    ∃ g', (KFS.init T sys (some (u.transform env))).correct env g a t v = .ok g' ∧ HasMoments env g' (v1 (y / 100)) (m1 0) := by
  cases TestDyn.init_ok.symm.trans hsys
  obtain ⟨z, hz, hT⟩ := C20_unscented_exact env hu (by simpa using hpos) (testDyn_affine t v) g _ _ hg (m1_posDef.2 hp)
  have hp' := hp.ne'
  have h := KFS.correct_of (K := KFS.init T ⟨TestDyn.f, TestDyn.h, .m (m1 0), .m (m1 0), Gaussian.ofMoment (.v (v1 0)) (.m (m1 0.0001)), 1⟩
    (some (u.transform env))) (t := t) (u := v) hg hT hz ha (R := m1 0) rfl (by simp [hp'])
  refine ⟨_, h, ?_⟩
  simp only [m1_mul, m1_add, m1_sub, m1_transpose, m1_inv, m1_mulVec, v1_add, v1_sub]
  convert hasMoments_ofMoment env (v1 (y / 100)) (m1 0) using 3
  · refine congrArg v1 ?_
    field_simp
    ring
  · refine congrArg m1 ?_
    field_simp
    ring

/-- **C73.** If the variance already is zero, the correction still moves the state to the measurement, and reports a negative variance. -/
theorem C73_certain_state {sys : Sys} (hsys : TestDyn.init = .ok sys) {T : Transform} {alpha beta kappa : ℝ} {u : UT}
    (hu : UT.init 1 alpha beta kappa = .ok u) (hpos : 0 < alpha ^ 2 * (1 + kappa)) {g : Gaussian} {m y : ℝ}
    (hg : HasMoments env g (v1 m) (m1 0)) {a : Arr} (ha : IsVec a (v1 y)) (t v : Option ℝ) :
    ∃ g', (KFS.init T sys (some (u.transform env))).correct env g a t v = .ok g' ∧ HasMoments env g' (v1 (y / 100)) (m1 (-(1 / 10 ^ 10))) := by
  cases TestDyn.init_ok.symm.trans hsys
  have h0 : (m1 0 : Matrix (Fin 1) (Fin 1) ℝ) = 0 := by ext i j; simp [m1]
  have hT := C96_singular hu (by simpa using hpos) hg (by rw [h0]; exact PosSemidef.zero) (fun h => by simpa using m1_posDef.1 h) (testDyn_affine t v)
  have h := KFS.correct_of (K := KFS.init T ⟨TestDyn.f, TestDyn.h, .m (m1 0), .m (m1 0), Gaussian.ofMoment (.v (v1 0)) (.m (m1 0.0001)), 1⟩
    (some (u.transform env))) (t := t) (u := v) hg hT (.inl rfl) ha (R := m1 0) rfl (by
      simp only [m1_mul, m1_add, m1_smul, m1_transpose, m1_det]
      norm_num)
  refine ⟨_, h, ?_⟩
  simp only [m1_mul, m1_add, m1_sub, m1_smul, m1_transpose, m1_inv, m1_mulVec, v1_add, v1_sub]
  convert hasMoments_ofMoment env (v1 (y / 100)) (m1 (-(1 / 10 ^ 10))) using 3
  · refine congrArg v1 ?_
    norm_num
    ring
  · refine congrArg m1 ?_
    norm_num

/-- The system's own prior and the measurement 250, twice. -/
example : ∃ sys u g g', TestDyn.init = .ok sys ∧ UT.init 1 1 0 0 = .ok u ∧
    (KFS.init (u.transform calmEnv) sys (some (u.transform calmEnv))).correct calmEnv sys.initState (.s 250) none none = .ok g ∧
    HasMoments calmEnv g (v1 2.5) (m1 0) ∧
    (KFS.init (u.transform calmEnv) sys (some (u.transform calmEnv))).correct calmEnv g (.s 250) none none = .ok g' ∧
    HasMoments calmEnv g' (v1 2.5) (m1 (-(1 / 10 ^ 10))) := by
  obtain ⟨u, hu, -⟩ := (C14_unscented_weights 1 1 0 0).2 (by norm_num)
  have hv : IsVec (.s 250) (v1 250) := .inr (by simp [v1])
  obtain ⟨g, h1, h2⟩ := C73_exact_measurement (env := calmEnv) (T := u.transform calmEnv) TestDyn.init_ok hu (by norm_num)
    (m := 0) (p := 0.0001) (by norm_num) (hasMoments_ofMoment calmEnv (v1 0) (m1 0.0001)) hv none none
  obtain ⟨g', h3, h4⟩ := C73_certain_state (env := calmEnv) (T := u.transform calmEnv) TestDyn.init_ok hu (by norm_num) h2 hv none none
  rw [show (250 : ℝ) / 100 = 2.5 by norm_num] at h2 h4
  exact ⟨_, u, g, g', TestDyn.init_ok, hu, h1, h2, h3, h4⟩

/-! ## C62 -/

/-- **C62.** A tracking system without sensors measures nothing: every state gives the empty measurement, and nothing is raised. -/
theorem C62_no_sensors (x : Arr) (t u : Option ℝ) : BOT.h (some []) x t u = .ok (.v (n := 0) fun _ => 0) ∧
    BOTT.h (some []) x t u = .ok (.v (n := 0) fun _ => 0) := by
  constructor <;> cases x <;> rfl

/-! ## C78 -/

private theorem arr_v_congr {p q : ℕ} (h : p = q) {f : Fin p → ℝ} {f' : Fin q → ℝ} (hf : ∀ i, f i = f' (Fin.cast h i)) : Arr.v f = Arr.v f' := by
  subst h
  congr 1
  exact funext hf

private theorem simulateLoop_start (rng : Rng) (sys : DynSys) (g : Gaussian) : ∀ (N x : ℕ) (t : ℝ),
    DynSys.simulateLoop rng { sys with initState := g } N x t = DynSys.simulateLoop rng sys N x t
  | 0, _, _ => rfl
  | N + 1, x, t => by
    simp only [DynSys.simulateLoop]
    have h : ∀ x, DynSys.simulateStep rng { sys with initState := g } x t = DynSys.simulateStep rng sys x t := fun _ => rfl
    rw [h]
    simp only [simulateLoop_start rng sys g N]

/-- **C78.** The initial state may hold its mean as a vector, as a row or as a column: the simulation is the same. -/
theorem C78_start_shape (rng : Rng) (sys : DynSys) {n : ℕ} (m : Fin n → ℝ) (C : Arr) (N : ℕ) (t : ℝ) {a : Arr}
    (ha : a = .m (Matrix.of fun (_ : Fin 1) j => m j) ∨ a = .m (Matrix.of fun i (_ : Fin 1) => m i)) :
    DynSys.simulate env rng { sys with initState := Gaussian.ofMoment a C } N none t =
      DynSys.simulate env rng { sys with initState := Gaussian.ofMoment (.v m) C } N none t := by
  have hr : DynSys.ravel a = .v m := by
    rcases ha with rfl | rfl
    · refine arr_v_congr (one_mul n) fun i => congrArg m (Fin.ext ?_)
      have : (i : ℕ) < n := by have := i.2; omega
      simp [finProdFinEquiv, Fin.modNat, Nat.mod_eq_of_lt this]
    · refine arr_v_congr (mul_one n) fun i => congrArg m (Fin.ext ?_)
      simp [finProdFinEquiv, Fin.divNat]
  have h1 : ∀ b : Arr, b.atleast1d = b → (Gaussian.ofMoment b C).mean env = .ok (some b) := fun b hb => by
    simp [Gaussian.mean, Gaussian.getMean, Gaussian.ofMoment, Gaussian.init, hb]
  have h2 : ∀ b : Arr, (Gaussian.ofMoment b C).covA env = .ok C := fun b => by
    simp [Gaussian.covA, Gaussian.cov, Gaussian.getCov, Gaussian.ofMoment, Gaussian.init, need]
  have h3 : a.atleast1d = a := by rcases ha with rfl | rfl <;> rfl
  have e : ∀ b : Arr, b.atleast1d = b → DynSys.simulate env rng { sys with initState := Gaussian.ofMoment b C } N none t =
      (do
        let x0 ← DynSys.sample rng { dimension := 0, cov := C, mean := some (DynSys.ravel b) }
        let s ← PyM.get
        PyM.modify fun s => s.alloc x0
        DynSys.simulateLoop rng sys N s.size t) := fun b hb => by
    simp only [DynSys.simulate, h1 b hb, h2, ok_bind, need, simulateLoop_start]
    rfl
  rw [e a h3, e (.v m) rfl, hr]
  rfl

/-- A column as the mean of the initial state. -/
example (rng : Rng) (sys : DynSys) (N : ℕ) :
    DynSys.simulate calmEnv rng { sys with initState := Gaussian.ofMoment (.m !![1; 2]) (.m (1 : Matrix (Fin 2) (Fin 2) ℝ)) } N none 0 =
      DynSys.simulate calmEnv rng { sys with initState := Gaussian.ofMoment (.v ![1, 2]) (.m (1 : Matrix (Fin 2) (Fin 2) ℝ)) } N none 0 :=
  C78_start_shape rng sys ![1, 2] _ N 0 (.inr (congrArg Arr.m (by ext i j; fin_cases i <;> fin_cases j <;> rfl)))

end Verif
