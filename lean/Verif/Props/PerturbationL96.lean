import Verif.Props.Perturbation
import Verif.Props.L96
import Verif.Props.Even

/-!
# Smoothing Lorenz 96: results depend continuously on noise, time step, forcing, initial condition and data (C121)
-/

namespace Verif

open Matrix Gaussian

variable {env : Env} {n : ℕ} {Θ : Type*} [TopologicalSpace Θ]

private noncomputable def stages {r : ℕ} (dt F : ℝ) (X : Matrix (Fin r) (Fin n) ℝ) : Matrix (Fin r) (Fin n) ℝ :=
  let k1 := L96.drift F X
  let k2 := L96.drift F (X + of fun i j => dt * k1 i j / 2)
  let k3 := L96.drift F (X + of fun i j => dt * k2 i j / 2)
  let k4 := L96.drift F (X + dt • k3)
  X + (1 / 6 * dt) • (k1 + (2 : ℝ) • k2 + (2 : ℝ) • k3 + k4)

private theorem step_stages (dt F : ℝ) (t u : Option ℝ) : OnRows (fun x => L96.f dt F x t u) fun (x : Fin n → ℝ) j =>
    stages dt F (r := 1) (of fun _ j => x j) 0 j := fun N X => by
  have hm : ∀ Y : Matrix (Fin N) (Fin n) ℝ, L96.model F (.m Y) = .m (L96.drift F Y) := fun _ => rfl
  have hd : ∀ Y : Matrix (Fin N) (Fin n) ℝ, (Arr.m (dt • Y)).map (· / 2) = .m (of fun i j => dt * Y i j / 2) := fun _ => rfl
  simp only [L96.f, hm, Arr.smul_m, hd, Arr.add_mm, ok_bind]
  rfl

private theorem drift_continuous {F : Θ → ℝ} (hF : Continuous F) {Z : Θ → Matrix (Fin 1) (Fin n) ℝ} (hZ : Continuous Z) :
    Continuous fun θ => L96.drift (F θ) (Z θ) := by
  refine continuous_pi fun i => continuous_pi fun j => ?_
  have h : ∀ a, Continuous fun θ => Z θ i a := fun a => hZ.matrix_elem i a
  have h1 := h (L96.rollIdx (-1) j)
  have h2 := h (L96.rollIdx (-2) j)
  have h3 := h (L96.rollIdx 1 j)
  have h4 := h j
  simp only [L96.drift, L96.roll, of_apply]
  fun_prop

private theorem stages_continuous {dt F : Θ → ℝ} (hd : Continuous dt) (hF : Continuous F) {Z : Θ → Matrix (Fin 1) (Fin n) ℝ}
    (hZ : Continuous Z) : Continuous fun θ => stages (dt θ) (F θ) (Z θ) := by
  have half : ∀ k : Θ → Matrix (Fin 1) (Fin n) ℝ, Continuous k → Continuous fun θ => Z θ + of fun i j => dt θ * k θ i j / 2 := fun k hk =>
    hZ.add (continuous_pi fun i => continuous_pi fun j => by
      have := hk.matrix_elem i j
      simp only [of_apply]
      fun_prop)
  have h1 := drift_continuous hF hZ
  have h2 := drift_continuous hF (half _ h1)
  have h3 := drift_continuous hF (half _ h2)
  have h4 := drift_continuous hF (hZ.add (hd.smul h3))
  exact hZ.add ((continuous_const.mul hd).smul (((h1.add (h2.const_smul (2 : ℝ))).add (h3.const_smul (2 : ℝ))).add h4))

private noncomputable def lorenzSys (q r dt F : ℝ) (x : Fin n → ℝ) : Sys where
  transition := L96.f dt F
  measurement := L96.h
  Q := .m (q • 1 : Matrix (Fin n) (Fin n) ℝ)
  R := .m (r • 1 : Matrix (Fin n) (Fin n) ℝ)
  initState := ofMoment (.v x) (.m (1 : Matrix (Fin n) (Fin n) ℝ))
  dt := 1

/-- **C121.** Filtering and smoothing Lorenz 96 with the default unscented transform: the reported moments are continuous functions of the
noise levels, the time step, the forcing, the stored initial condition and the measurements, jointly. -/
theorem C121_lorenz {q r dt F : Θ → ℝ} {x : Θ → Fin n → ℝ} (hq : ∀ θ, 0 < q θ) (hr : ∀ θ, 0 < r θ) (cq : Continuous q) (cr : Continuous r)
    (cd : Continuous dt) (cF : Continuous F) (cx : Continuous x) {sys : Θ → Sys}
    (hs : ∀ θ, L96.init (q θ) (r θ) (dt θ) n (F θ) (some (.v (x θ))) = .ok (sys θ)) {κ : ℝ} (hκ : 0 < κ) {v : UT}
    (hv : UT.init n 1 2 κ = .ok v) {W : ℕ} (hW : 0 < W) {y : Θ → Fin W → Fin n → ℝ} (cy : Continuous y) :
    ∃ (M : Θ → ℕ → Fin n → ℝ) (V : Θ → ℕ → Matrix (Fin n) (Fin n) ℝ),
      (∀ θ, ∃ fs rs, (KFS.init (v.transform env) (sys θ) none).kalmanFilter env (List.ofFn fun i => .v (y θ i)) none 0 none = .ok fs ∧
        (KFS.init (v.transform env) (sys θ) none).kalmanSmoother env fs none = .ok rs ∧ rs.length = W ∧
        ∀ i < W, ∃ g, rs[i]? = some g ∧ HasMoments env g (M θ i) (V θ i) ∧ (V θ i).PosDef) ∧
      ∀ i < W, Continuous (fun θ => M θ i) ∧ Continuous fun θ => V θ i := by
  have h0 : (0 : ℝ) ≤ n := Nat.cast_nonneg n
  have hp : (0 : ℝ) < 1 ^ 2 * (n + κ) := by linarith
  have hw : (0 : ℝ) ≤ (1 ^ 2 * (n + κ) - n) / (1 ^ 2 * (n + κ)) + 1 - 1 ^ 2 + 2 := by
    have : (0 : ℝ) ≤ (1 ^ 2 * (n + κ) - n) / (1 ^ 2 * (n + κ)) := div_nonneg (by linarith) (by linarith)
    linarith
  have hsys : ∀ θ, sys θ = lorenzSys (q θ) (r θ) (dt θ) (F θ) (x θ) := fun θ => by
    have h := hs θ
    have e : L96.init (q θ) (r θ) (dt θ) n (F θ) (some (.v (x θ))) = Sys.make n n (L96.f (dt θ) (F θ)) L96.h
        (.init n (some ((Arr.eye n).smul (q θ))) none) (.init n (some ((Arr.eye n).smul (r θ))) none)
        (Gaussian.ofMoment (.v (x θ)) (Arr.eye n)) 1 := by
      simp only [L96.init, ok_bind, Arr.shape0_v, ne_eq, not_true_eq_false, if_false]
    rw [e, Sys.make, if_pos ⟨rfl, rfl⟩, Except.ok.injEq] at h
    rw [← h]
    rfl
  obtain rfl : sys = _ := funext hsys
  have cf : Continuous fun p : Θ × (Fin n → ℝ) => fun j => stages (dt p.1) (F p.1) (r := 1) (of fun _ j => p.2 j) 0 j := by
    have := stages_continuous (Θ := Θ × (Fin n → ℝ)) (Z := fun p => of fun _ j => p.2 j) (cd.comp continuous_fst) (cF.comp continuous_fst)
      (continuous_pi fun i => continuous_pi fun j => (continuous_apply j).comp continuous_snd)
    exact continuous_pi fun j => this.matrix_elem 0 j
  have ch : Continuous fun p : Θ × (Fin n → ℝ) => fun j => p.2 j ^ 2 := by fun_prop
  have hK : ContinuousProblem (Θ := Θ) (n := n) (k := n) env (fun θ => KFS.init (v.transform env)
      (lorenzSys (q θ) (r θ) (dt θ) (F θ) (x θ)) none) (fun _ => none) (fun _ => 0)
      (fun θ => ofMoment (.v (x θ)) (.m (1 : Matrix (Fin n) (Fin n) ℝ))) :=
    { transition := fun i => C121_unscented hv hp (fun θ => step_stages (dt θ) (F θ) (some (0 + i * 1)) none) cf
      linTransition := fun θ i => unscented_linearises hv hp hw (step_stages (dt θ) (F θ) (some (0 + i * 1)) none)
      measurement := fun i => C121_unscented hv hp (fun θ => L96.h_rows (some (0 + i * 1)) none) ch
      linMeasurement := fun θ i => unscented_linearises hv hp hw (L96.h_rows (some (0 + i * 1)) none)
      noise := ⟨_, _, fun θ => ⟨rfl, PosDef.one.smul (hq θ)⟩, fun θ => ⟨rfl, PosDef.one.smul (hr θ)⟩, cq.smul continuous_const,
        cr.smul continuous_const⟩
      prior := ⟨x, fun _ => 1, fun θ => ⟨hasMoments_ofMoment .., PosDef.one⟩, cx, continuous_const⟩ }
  exact C121_smoother hK (prior := fun _ => none) hW (yv := fun θ i => if h : i < W then y θ ⟨i, h⟩ else 0) (fun θ => by simp)
    (fun θ i a ha => by
      obtain ⟨hi, rfl⟩ := List.getElem?_eq_some_iff.1 ha
      have hi' : i < W := by simpa using hi
      simp only [List.getElem_ofFn, hi', dif_pos]
      exact IsPoint.isVec (.inl rfl))
    fun i hi => by
      simp only [hi, dif_pos]
      exact (continuous_apply (⟨i, hi⟩ : Fin W)).comp cy

/-- Five variables, three measurements: smoothed results depend continuously on the forcing and on the first measurement. -/
example : ∃ (v : UT) (sys : ℝ × (Fin 5 → ℝ) → Sys) (M : ℝ × (Fin 5 → ℝ) → ℕ → Fin 5 → ℝ) (V : ℝ × (Fin 5 → ℝ) → ℕ → Matrix (Fin 5) (Fin 5) ℝ),
    UT.init 5 1 2 1 = .ok v ∧ (∀ θ, L96.init 0.1 1 0.05 5 θ.1 (some (.v (0 : Fin 5 → ℝ))) = .ok (sys θ)) ∧
    (∀ θ, ∃ fs rs, (KFS.init (v.transform calmEnv) (sys θ) none).kalmanFilter calmEnv [.v θ.2, .v (1 : Fin 5 → ℝ), .v (2 : Fin 5 → ℝ)] none 0 none = .ok fs ∧
      (KFS.init (v.transform calmEnv) (sys θ) none).kalmanSmoother calmEnv fs none = .ok rs ∧ rs.length = 3 ∧
      ∀ i < 3, ∃ g, rs[i]? = some g ∧ HasMoments calmEnv g (M θ i) (V θ i) ∧ (V θ i).PosDef) ∧
    ∀ i < 3, Continuous (fun θ => M θ i) ∧ Continuous fun θ => V θ i := by
  obtain ⟨v, hv, -⟩ := (C14_unscented_weights 5 1 2 1).2 (by norm_num)
  choose sys hs using fun θ : ℝ × (Fin 5 → ℝ) =>
    (C54_stored_works 0.1 1 0.05 θ.1 (0 : Fin 5 → ℝ)).imp fun _ h => h.1
  obtain ⟨M, V, h1, h2⟩ := C121_lorenz (env := calmEnv) (q := fun _ => 0.1) (r := fun _ => 1) (x := fun _ => 0) (fun _ => by norm_num)
    (fun _ => one_pos) continuous_const continuous_const continuous_const continuous_fst continuous_const hs one_pos hv (W := 3)
    (by norm_num) (y := fun θ => ![θ.2, 1, 2]) (continuous_pi fun i => by
      fin_cases i
      · exact continuous_snd
      · exact continuous_const
      · exact continuous_const)
  exact ⟨v, sys, M, V, hv, hs, fun θ => by simpa using h1 θ, h2⟩

end Verif
