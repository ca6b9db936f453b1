import Verif.Props.PerturbationIEKS
import Verif.Props.L96
import Mathlib.Analysis.Calculus.ContDiff.Operations

/-!
# The iterated smoother on Lorenz 96: continuous in all settings and the data (C121)
-/

namespace Verif

open Matrix Gaussian

variable {env : Env} {jac : Jac} {n : ℕ} {Θ : Type*} [TopologicalSpace Θ]

/-- One Runge-Kutta step from a vector, as a row. -/
private noncomputable def rkRow (dt F : ℝ) (x : Fin n → ℝ) : Matrix (Fin 1) (Fin n) ℝ :=
  let X : Matrix (Fin 1) (Fin n) ℝ := of fun _ j => x j
  let k1 := L96.drift F X
  let k2 := L96.drift F (X + of fun i j => dt * k1 i j / 2)
  let k3 := L96.drift F (X + of fun i j => dt * k2 i j / 2)
  let k4 := L96.drift F (X + dt • k3)
  X + (1 / 6 * dt) • (k1 + (2 : ℝ) • k2 + (2 : ℝ) • k3 + k4)

private theorem f_row (dt F : ℝ) (t u : Option ℝ) : RowFunc (fun z => L96.f dt F z t u) fun (x : Fin n → ℝ) j => rkRow dt F x 0 j := fun x => by
  have hm : ∀ Y : Matrix (Fin 1) (Fin n) ℝ, L96.model F (.m Y) = .m (L96.drift F Y) := fun _ => rfl
  have hv : L96.model F (.v x) = .m (L96.drift F (r := 1) (of fun _ j => x j)) := rfl
  have hd : ∀ Y : Matrix (Fin 1) (Fin n) ℝ, (Arr.m (dt • Y)).map (· / 2) = .m (of fun i j => dt * Y i j / 2) := fun _ => rfl
  have ha : ∀ Y : Matrix (Fin 1) (Fin n) ℝ, (Arr.v x).add (.m Y) = .ok (.m ((of fun _ j => x j) + Y)) := fun Y => by
    rw [Arr.add_vm]; rfl
  simp only [L96.f, hv, hm, Arr.smul_m, hd, ha, Arr.add_mm, ok_bind]
  rfl

private theorem drift_smooth {Z : ℝ × ℝ × (Fin n → ℝ) → Matrix (Fin 1) (Fin n) ℝ} (hZ : ∀ j, ContDiff ℝ 1 fun p => Z p 0 j) (j : Fin n) :
    ContDiff ℝ 1 fun p => L96.drift p.2.1 (Z p) 0 j := by
  have h1 := hZ (L96.rollIdx (-1) j)
  have h2 := hZ (L96.rollIdx (-2) j)
  have h3 := hZ (L96.rollIdx 1 j)
  have h4 := hZ j
  simp only [L96.drift, L96.roll, of_apply]
  fun_prop

private theorem half_smooth {Y Z : ℝ × ℝ × (Fin n → ℝ) → Matrix (Fin 1) (Fin n) ℝ} (hY : ∀ j, ContDiff ℝ 1 fun p => Y p 0 j)
    (hZ : ∀ j, ContDiff ℝ 1 fun p => Z p 0 j) (j : Fin n) : ContDiff ℝ 1 fun p => (Y p + of fun i j => p.1 * Z p i j / 2) 0 j := by
  have := hY j
  have := hZ j
  simp only [Matrix.add_apply, of_apply]
  fun_prop

private theorem rk_smooth : ContDiff ℝ 1 fun (p : ℝ × ℝ × (Fin n → ℝ)) (j : Fin n) => rkRow p.1 p.2.1 p.2.2 0 j := by
  refine contDiff_pi.2 fun j => ?_
  have h0 : ∀ j, ContDiff ℝ 1 fun p : ℝ × ℝ × (Fin n → ℝ) => (of fun _ j => p.2.2 j : Matrix (Fin 1) (Fin n) ℝ) 0 j := fun j => by
    simp only [of_apply]; fun_prop
  have h1 := drift_smooth h0
  have h2 := drift_smooth (half_smooth h0 h1)
  have h3 := drift_smooth (half_smooth h0 h2)
  have h4 := drift_smooth (Z := fun p => (of fun _ j => p.2.2 j) + p.1 • L96.drift p.2.1 ((of fun _ j => p.2.2 j) + of fun i j => p.1 *
      L96.drift p.2.1 ((of fun _ j => p.2.2 j) + of fun i j => p.1 * L96.drift p.2.1 (of fun _ j => p.2.2 j) i j / 2) i j / 2))
    fun j => by
      have a := h0 j
      have b := h3 j
      simp only [Matrix.add_apply, Matrix.smul_apply, smul_eq_mul, of_apply] at *
      fun_prop
  have a0 := h0 j
  have a1 := h1 j
  have a2 := h2 j
  have a3 := h3 j
  have a4 := h4 j
  unfold rkRow
  simp only [Matrix.add_apply, Matrix.smul_apply, smul_eq_mul, of_apply] at *
  fun_prop

private noncomputable def lorenzSystem (q r dt F : ℝ) (x : Fin n → ℝ) : Sys where
  transition := L96.f dt F
  measurement := L96.h
  Q := .m (q • 1 : Matrix (Fin n) (Fin n) ℝ)
  R := .m (r • 1 : Matrix (Fin n) (Fin n) ℝ)
  initState := ofMoment (.v x) (.m (1 : Matrix (Fin n) (Fin n) ℝ))
  dt := 1

/-- **C121.** The iterated smoother on Lorenz 96 in every dimension from two on: for every number of iterations the reported moments are
continuous functions of the noise levels, the time step, the forcing, the stored initial condition and the measurements, jointly. -/
theorem C121_lorenz_ieks (hjac : CorrectJac jac) (hn : 2 ≤ n) {q r dt F : Θ → ℝ} {x : Θ → Fin n → ℝ} (hq : ∀ θ, 0 < q θ) (hr : ∀ θ, 0 < r θ)
    (cq : Continuous q) (cr : Continuous r) (cd : Continuous dt) (cF : Continuous F) (cx : Continuous x) {sys : Θ → Sys}
    (hs : ∀ θ, L96.init (q θ) (r θ) (dt θ) n (F θ) (some (.v (x θ))) = .ok (sys θ)) (numIter : ℕ) {W : ℕ} (hW : 0 < W)
    {y : Θ → Fin W → Fin n → ℝ} (cy : Continuous y) :
    ∃ (M : Θ → ℕ → Fin n → ℝ) (V : Θ → ℕ → Matrix (Fin n) (Fin n) ℝ),
      (∀ θ, ∃ rs s', IEKS.call env jac (IEKS.init env jac (sys θ)).1 (List.ofFn fun i => .v (y θ i)) numIter (IEKS.init env jac (sys θ)).2 =
          (.ok rs, s') ∧ rs.length = W ∧
        ∀ i < W, ∃ g, rs[i]? = some g ∧ HasMoments env g (M θ i) (V θ i) ∧ (V θ i).PosDef) ∧
      ∀ i < W, Continuous (fun θ => M θ i) ∧ Continuous fun θ => V θ i := by
  have h1 : n ≠ 1 := by omega
  have hsys : ∀ θ, sys θ = lorenzSystem (q θ) (r θ) (dt θ) (F θ) (x θ) := fun θ => by
    have h := hs θ
    have e : L96.init (q θ) (r θ) (dt θ) n (F θ) (some (.v (x θ))) = Sys.make n n (L96.f (dt θ) (F θ)) L96.h
        (.init n (some ((Arr.eye n).smul (q θ))) none) (.init n (some ((Arr.eye n).smul (r θ))) none)
        (Gaussian.ofMoment (.v (x θ)) (Arr.eye n)) 1 := by
      simp only [L96.init, ok_bind, Arr.shape0_v, ne_eq, not_true_eq_false, if_false]
    rw [e, Sys.make, if_pos ⟨rfl, rfl⟩, Except.ok.injEq] at h
    rw [← h]
    rfl
  obtain rfl : sys = _ := funext hsys
  have cp : Continuous fun p : Θ × (Fin n → ℝ) => (dt p.1, F p.1, p.2) :=
    (cd.comp continuous_fst).prodMk ((cF.comp continuous_fst).prodMk continuous_snd)
  let G : ℝ × ℝ × (Fin n → ℝ) → Fin n → ℝ := fun p j => rkRow p.1 p.2.1 p.2.2 0 j
  have hG : ContDiff ℝ 1 G := rk_smooth
  have hf : ∀ j : ℕ, ContinuouslyTame (fun θ => L96.f (dt θ) (F θ)) (fun _ => j * 1) n n := fun j => by
    refine ⟨fun θ x => G (dt θ, F θ, x), fun θ x => (fderiv ℝ G (dt θ, F θ, x)).comp ((ContinuousLinearMap.inr ℝ ℝ (ℝ × (Fin n → ℝ))).comp
      (ContinuousLinearMap.inr ℝ ℝ (Fin n → ℝ))), .inr ⟨h1, h1, fun θ => f_row _ _ _ _⟩, fun θ x => ?_, hG.continuous.comp cp, ?_⟩
    · have a := (hG.differentiable one_ne_zero (dt θ, F θ, x)).hasFDerivAt
      exact a.comp x ((hasFDerivAt_prodMk_right (dt θ) (F θ, x)).comp x (hasFDerivAt_prodMk_right (F θ) x))
    · exact ((hG.continuous_fderiv one_ne_zero).comp cp).clm_comp continuous_const
  have hh : ∀ j : ℕ, ContinuouslyTame (Θ := Θ) (fun _ => L96.h) (fun _ => j * 1) n n := fun j =>
    ⟨fun _ x i => x i ^ 2, fun _ x => ContinuousLinearMap.pi fun i => (2 * x i) • ContinuousLinearMap.proj i,
      .inr ⟨h1, h1, fun _ => L96.h_row (some (j * 1)) none⟩, fun _ x => hasFDerivAt_pi.2 fun i => by
          simpa using (ContinuousLinearMap.proj (R := ℝ) (φ := fun _ : Fin n => ℝ) i).hasFDerivAt (x := x) |>.pow 2, by fun_prop,
        continuous_clm_apply.2 fun v => continuous_pi fun i => by
          simp only [ContinuousLinearMap.pi_apply, _root_.smul_apply, ContinuousLinearMap.proj_apply, smul_eq_mul]
          fun_prop⟩
  obtain ⟨M, V, rs, s', e, t, -⟩ := ieks_call (env := env) hjac (sys := fun θ => lorenzSystem (q θ) (r θ) (dt θ) (F θ) (x θ)) hf hh
    (fun θ => ⟨rfl, PosDef.one.smul (hq θ)⟩) (fun θ => ⟨rfl, PosDef.one.smul (hr θ)⟩) (cq.smul continuous_const) (cr.smul continuous_const)
    (fun θ => ⟨hasMoments_ofMoment .., PosDef.one⟩) cx continuous_const numIter hW
    (ys := fun θ => List.ofFn fun i => .v (y θ i)) (yv := fun θ i => if h : i < W then y θ ⟨i, h⟩ else 0) (fun θ => by simp)
    (fun θ i a ha => by
      obtain ⟨hi, rfl⟩ := List.getElem?_eq_some_iff.1 ha
      have hi' : i < W := by simpa using hi
      simp only [List.getElem_ofFn, hi', dif_pos]
      exact IsPoint.isVec (.inl rfl))
    (fun i hi => by
      simp only [hi, dif_pos]
      exact (continuous_apply (⟨i, hi⟩ : Fin W)).comp cy)
    (fun θ => (IEKS.init env jac (lorenzSystem (q θ) (r θ) (dt θ) (F θ) (x θ))).2) (fun j => ⟨hf j, hh j⟩)
  exact ⟨M, V, fun θ => ⟨rs θ, s' θ, (e θ).1, (e θ).2⟩, t⟩

/-- Five variables, two measurements, ten iterations: the results depend continuously on the forcing and on the first measurement. -/
example : ∃ (sys : ℝ × (Fin 5 → ℝ) → Sys) (M : ℝ × (Fin 5 → ℝ) → ℕ → Fin 5 → ℝ) (V : ℝ × (Fin 5 → ℝ) → ℕ → Matrix (Fin 5) (Fin 5) ℝ),
    (∀ θ, L96.init 0.1 1 0.05 5 θ.1 (some (.v (0 : Fin 5 → ℝ))) = .ok (sys θ)) ∧
    (∀ θ, ∃ rs s', IEKS.call calmEnv exactJac (IEKS.init calmEnv exactJac (sys θ)).1 [.v θ.2, .v (1 : Fin 5 → ℝ)] 10
      (IEKS.init calmEnv exactJac (sys θ)).2 = (.ok rs, s') ∧ rs.length = 2 ∧
      ∀ i < 2, ∃ g, rs[i]? = some g ∧ HasMoments calmEnv g (M θ i) (V θ i) ∧ (V θ i).PosDef) ∧
    ∀ i < 2, Continuous (fun θ => M θ i) ∧ Continuous fun θ => V θ i := by
  choose sys hs using fun θ : ℝ × (Fin 5 → ℝ) =>
    (C54_stored_works 0.1 1 0.05 θ.1 (0 : Fin 5 → ℝ)).imp fun _ h => h.1
  obtain ⟨M, V, h1, h2⟩ := C121_lorenz_ieks (env := calmEnv) exactJac_correct (by norm_num) (q := fun _ => 0.1) (r := fun _ => 1)
    (x := fun _ => 0) (fun _ => by norm_num) (fun _ => one_pos) continuous_const continuous_const continuous_const continuous_fst
    continuous_const hs 10 (W := 2) (by norm_num) (y := fun θ => ![θ.2, 1]) (continuous_pi fun i => by
      fin_cases i
      · exact continuous_snd
      · exact continuous_const)
  exact ⟨sys, M, V, hs, fun θ => by simpa using h1 θ, h2⟩

end Verif
